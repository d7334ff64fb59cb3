import Verif.Proof.Marks
import Verif.Props.EdgeKinds
import Verif.Props.Exec5

/-! # What a visitor sees in the marks of the nodes (C118) -/

namespace Joque

variable {C : Cfg}

/-! ## C118 -/

/-- The history with marks is the history: the same events in the same order, one set of marks
each. -/
theorem C118_complete (C : Cfg) (hwf : C.dag.WF) (ms : List Move) :
    (mexec C ms).1 = exec C ms ∧ (mexec C ms).2.map Prod.fst = (exec C ms).trace :=
  ⟨mexec_fst C ms, by rw [(minv_exec hwf ms).fst, mexec_fst]⟩

/-- **C118**, the marks never lie.  At every call of a visitor, of every node: `invalidated` is what the last
report about it said (UNKNOWN if there was none); `started` iff its job has been handed to a thread or begun;
`done` iff it has its record, the one handed out by this very call included; `failed` iff that record says
FAIL or DEPF. -/
theorem C118_agree (C : Cfg) (hwf : C.dag.WF) (ms : List Move) (pre post : List (Event × Flags))
    (e : Event) (f : Flags) (hlog : (mexec C ms).2 = pre ++ (e, f) :: post)
    (he : e.isCallback = true) : Agree f (pre.map Prod.fst ++ [e]) :=
  (minv_exec hwf ms).said pre e f post hlog he

/-- **C118**, freshness: from the first `on_tick` on, `invalidated` is INVALID exactly for the nodes that are
out of date and VALID exactly for the others. -/
theorem C118_stale (C : Cfg) (hwf : C.dag.WF) (ms : List Move) (e : Event) (f : Flags)
    (hlog : (e, f) ∈ (mexec C ms).2) (he : e.late = true) : StaleMarks C.dag C.ask f :=
  (minv_exec hwf ms).stale e f hlog he

/-- a call in the history with marks is one of the history -/
theorem marked_trace (hwf : C.dag.WF) {ms : List Move} {pre post : List (Event × Flags)}
    {e : Event} {f : Flags} (hlog : (mexec C ms).2 = pre ++ (e, f) :: post) :
    (exec C ms).trace = pre.map Prod.fst ++ e :: post.map Prod.fst := by
  rw [← (C118_complete C hwf ms).2, hlog]; simp

theorem handed_life {tr : List Event} {n : Node} :
    HandedOver tr n ↔ Tag.launch ∈ life n tr ∨ Tag.begin true ∈ life n tr := by
  unfold HandedOver
  rw [launch_mem_life]
  constructor
  · rintro (h | h)
    · exact .inl h
    · exact .inr (List.mem_filterMap.2 ⟨_, h, by simp [tagOf]⟩)
  · rintro (h | h)
    · exact .inl h
    · right
      obtain ⟨e, he, ht⟩ := List.mem_filterMap.1 h
      cases e with
      | jobBegin m b =>
        simp only [tagOf] at ht
        split at ht
        · rename_i hm; subst hm
          cases b <;> simp at ht
          exact he
        · cases ht
      | _ => simp only [tagOf] at ht; (try split at ht) <;> cases ht

theorem life_before (hwf : C.dag.WF) {ms : List Move} {pre post : List Event} {er : ExecRecord}
    {n : Node} (htr : (exec C ms).trace = pre ++ .beforeRun er n :: post) : life n pre = [] := by
  have h := C15_node_history C hwf ms n
  have hl : life n (exec C ms).trace = life n pre ++ Tag.before :: life n post := by
    rw [htr, life_append]; simp [life, tagOf]
  rw [hl] at h
  have key : ∀ {a b X : List Tag}, Tag.before ∉ X → a ++ Tag.before :: b <+: Tag.before :: X →
      a = [] := by
    intro a b X hX hp
    cases a with
    | nil => rfl
    | cons x a =>
      rw [List.cons_append, List.cons_prefix_cons] at hp
      exact absurd (hp.2.subset (by simp)) hX
  rcases h with h | ⟨_, h⟩ | ⟨_, h⟩
  · exact key (by decide) h
  · exact key (by decide) h
  · exact key (by decide) h

theorem life_log (hwf : C.dag.WF) {ms : List Move} {pre post : List Event} {log : Str}
    {n : Node} (htr : (exec C ms).trace = pre ++ .runLog n log :: post) :
    life n pre = [.before, .launch, .begin false, .end] ∨ life n pre = [.before, .begin true, .end] := by
  have h := C15_node_history C hwf ms n
  have hl : life n (exec C ms).trace = life n pre ++ Tag.log :: life n post := by
    rw [htr, life_append]; simp [life, tagOf]
  rw [hl] at h
  have key : ∀ {a b X Y : List Tag}, Tag.log ∉ X → Tag.log ∉ Y →
      a ++ Tag.log :: b <+: X ++ Tag.log :: Y → a = X := by
    intro a b X Y hX hY hp
    obtain ⟨c, hc⟩ := hp
    rw [List.append_assoc, List.cons_append] at hc
    rcases List.append_eq_append_iff.1 hc with ⟨d, h1, h2⟩ | ⟨d, h1, h2⟩
    · cases d with
      | nil => rw [h1, List.append_nil]
      | cons x d =>
        exfalso
        rw [List.cons_append] at h2
        exact hX (by rw [h1, ← (List.cons.inj h2).1]; simp)
    · cases d with
      | nil => rw [h1, List.append_nil]
      | cons x d =>
        exfalso
        rw [List.cons_append] at h2
        exact hY (by rw [(List.cons.inj h2).2]; simp)
  rcases h with h | ⟨_, h⟩ | ⟨_, h⟩
  · exact absurd (h.subset (show Tag.log ∈ _ by simp)) (by decide)
  · exact .inl (key (X := [.before, .launch, .begin false, .end]) (Y := [.after]) (by decide)
      (by decide) h)
  · exact .inr (key (X := [.before, .begin true, .end]) (Y := [.after]) (by decide) (by decide) h)

/-- **C118**, at `before_run` the node is untouched and everything it is ordered after, directly or not, is
done. -/
theorem C118_before_run (C : Cfg) (hwf : C.dag.WF) (ms : List Move) (er : ExecRecord) (n : Node)
    (f : Flags) (hlog : (.beforeRun er n, f) ∈ (mexec C ms).2) :
    f.started n = false ∧ f.done n = false ∧ f.failed n = false ∧ f.inval n ≠ .unknown ∧
    ∀ m, Relation.TransGen (AfterEdge C.dag) n m → f.done m = true := by
  obtain ⟨pre, post, hsp⟩ := List.append_of_mem hlog
  have hA := C118_agree C hwf ms pre post _ f hsp rfl
  have htr := marked_trace hwf hsp
  have hl := life_before hwf htr
  have hl' : life n (pre.map Prod.fst ++ [Event.beforeRun er n]) = [.before] := by
    rw [life_append, hl]; simp [life, tagOf]
  have hrec : ¬ Recorded (pre.map Prod.fst ++ [Event.beforeRun er n]) n := by
    rw [after_mem_life, hl']; decide
  refine ⟨?_, ?_, ?_, ?_, ?_⟩
  · have : ¬ f.started n = true := by
      rw [hA.started n, handed_life, hl']; decide
    simpa using this
  · have : ¬ f.done n = true := by rw [hA.done n]; exact hrec
    simpa using this
  · have : ¬ f.failed n = true := by
      rw [hA.failed n]
      rintro ⟨r, h1, h2, _⟩
      exact hrec ⟨r, h1, h2⟩
    simpa using this
  · have hn : n ∈ C.dag.nodes := ((tinv_exec hwf ms).always _ _ _ htr).2.1
    have h1 := C118_stale C hwf ms _ f hlog rfl n hn
    intro hu
    by_cases hs : Stale C.dag C.ask n
    · rw [h1.1.2 hs] at hu; cases hu
    · rw [h1.2.2 hs] at hu; cases hu
  · intro m hm
    rw [hA.done m]
    obtain ⟨r, h1, h2⟩ := recorded_before hwf ms htr hm
    exact ⟨r, by rw [recsOf_append]; exact List.mem_append_left _ h1, h2⟩

/-- **C118**, at `before_run` the marks tell the result as far as it is decided: the task will be DEPF iff
something it requires is marked failed, SKIP iff not and it is marked VALID, OK or FAIL otherwise. -/
theorem C118_predicts (C : Cfg) (hwf : C.dag.WF) (ms : List Move) (er : ExecRecord) (f : Flags)
    (r : RunRecord) (hlog : (.beforeRun er r.node, f) ∈ (mexec C ms).2)
    (hr : r ∈ recsOf (exec C ms).trace) :
    (r.status = .depf ↔ ∃ m, HasEdge C.dag .requires r.node m ∧ f.failed m = true) ∧
    (r.status = .skip ↔
      (¬ ∃ m, HasEdge C.dag .requires r.node m ∧ f.failed m = true) ∧ f.inval r.node = .valid) := by
  obtain ⟨pre, post, hsp⟩ := List.append_of_mem hlog
  have hA := C118_agree C hwf ms pre post _ f hsp rfl
  have htr := marked_trace hwf hsp
  have hrec : recsOf (pre.map Prod.fst ++ [Event.beforeRun er r.node]) = recsOf (pre.map Prod.fst) := by
    rw [recsOf_append]; simp [recsOf]
  have h1 : r.status = .depf ↔ ∃ m, HasEdge C.dag .requires r.node m ∧ f.failed m = true := by
    rw [C100_exact C hwf ms _ _ er r hr htr]
    constructor
    · rintro ⟨b, hb, he, hbad⟩
      exact ⟨b.node, he, (hA.failed b.node).2 ⟨b, by rw [hrec]; exact hb, rfl, hbad⟩⟩
    · rintro ⟨m, he, hf⟩
      obtain ⟨b, hb, rfl, hbad⟩ := (hA.failed m).1 hf
      exact ⟨b, by rw [hrec] at hb; exact hb, he, hbad⟩
  refine ⟨h1, ?_⟩
  rw [← h1]
  have hn : r.node ∈ C.dag.nodes := ((tinv_exec hwf ms).always _ _ _ htr).2.1
  rw [(C118_stale C hwf ms _ f hlog rfl r.node hn).2]
  have h6 := C06_status_meaning C hwf ms r hr
  constructor
  · intro hs
    rw [hs] at h6
    exact ⟨by rw [hs]; decide, h6.2.2.2.1⟩
  · rintro ⟨hd, hns⟩
    have h8 := C08_executed_iff_stale C hwf ms r hr hd
    have hb := (began_of_status (tinv_exec hwf ms) (by rw [← (tinv_exec hwf ms).recs]; exact hr)).1
    cases hs : r.status with
    | skip => rfl
    | depf => exact absurd hs hd
    | ok => exact absurd (h8.1 (hb.2 (.inl hs))) hns
    | fail => exact absurd (h8.1 (hb.2 (.inr hs))) hns

/-- **C118**, at `on_run_log` the node is started and not done yet. -/
theorem C118_run_log (C : Cfg) (hwf : C.dag.WF) (ms : List Move) (n : Node) (log : Str) (f : Flags)
    (hlog : (.runLog n log, f) ∈ (mexec C ms).2) :
    f.started n = true ∧ f.done n = false ∧ f.failed n = false := by
  obtain ⟨pre, post, hsp⟩ := List.append_of_mem hlog
  have hA := C118_agree C hwf ms pre post _ f hsp rfl
  have hl := life_log hwf (marked_trace hwf hsp)
  have hl' : life n (pre.map Prod.fst ++ [Event.runLog n log]) = life n (pre.map Prod.fst) ++ [.log] := by
    rw [life_append]; simp [life, tagOf]
  have hrec : ¬ Recorded (pre.map Prod.fst ++ [Event.runLog n log]) n := by
    rw [after_mem_life, hl']
    rcases hl with h | h <;> rw [h] <;> decide
  refine ⟨?_, ?_, ?_⟩
  · rw [hA.started n, handed_life, hl']
    rcases hl with h | h <;> rw [h] <;> decide
  · have : ¬ f.done n = true := by rw [hA.done n]; exact hrec
    simpa using this
  · have : ¬ f.failed n = true := by
      rw [hA.failed n]
      rintro ⟨r, h1, h2, _⟩
      exact hrec ⟨r, h1, h2⟩
    simpa using this

/-- **C118**, at `after_run` the node of the record is done, and failed iff the record says FAIL or DEPF; it is
marked started iff its job ran. -/
theorem C118_after_run (C : Cfg) (hwf : C.dag.WF) (ms : List Move) (er : ExecRecord) (r : RunRecord)
    (x : Node) (f : Flags) (hlog : (.afterRun er r x, f) ∈ (mexec C ms).2) :
    f.done r.node = true ∧ (f.failed r.node = true ↔ r.status = .fail ∨ r.status = .depf) ∧
    (f.started r.node = true ↔ r.status = .ok ∨ r.status = .fail) := by
  obtain ⟨pre, post, hsp⟩ := List.append_of_mem hlog
  have hA := C118_agree C hwf ms pre post _ f hsp rfl
  have htr := marked_trace hwf hsp
  obtain ⟨hI, hT⟩ := both_exec hwf ms
  have hrec : recsOf (pre.map Prod.fst ++ [Event.afterRun er r x]) = recsOf (pre.map Prod.fst) ++ [r] := by
    rw [recsOf_append]; simp [recsOf]
  have hmem : r ∈ recsOf (pre.map Prod.fst ++ [Event.afterRun er r x]) := by rw [hrec]; simp
  have htr' : (exec C ms).trace =
      (pre.map Prod.fst ++ [Event.afterRun er r x]) ++ post.map Prod.fst := by rw [htr]; simp
  have hr : r ∈ (exec C ms).erec.runs := by
    rw [← hT.recs, htr', recsOf_append]; exact List.mem_append_left _ hmem
  refine ⟨(hA.done r.node).2 ⟨r, hmem, rfl⟩, ?_, ?_⟩
  · rw [hA.failed r.node]
    constructor
    · rintro ⟨q, h1, h2, h3⟩
      have hq : q ∈ (exec C ms).erec.runs := by
        rw [← hT.recs, htr', recsOf_append]; exact List.mem_append_left _ h1
      rw [rec_unique hI hq hr h2] at h3
      exact h3
    · intro h; exact ⟨r, hmem, rfl, h⟩
  · rw [hA.started r.node, handed_life]
    obtain ⟨_, q, hq, hqn, hl⟩ := rec_split hT htr' ⟨r, hmem, rfl⟩
    rw [rec_unique hI hq hr hqn] at hl
    rw [hl]
    cases r.status <;> by_cases h0 : C.threadCount = 0 <;> simp [recLife, h0]

/-- three tasks without anything in common, three threads -/
def Ex.three : Cfg := { Ex.par 3 with resources := fun _ => [] }

theorem Ex.three_wf : Ex.three.dag.WF := Ex.par_wf 3

/-- 1 is collected while 2 executes, then 3 -/
def Ex.threeMoves : List Move :=
  List.replicate 19 .ctl ++ [.begin 1, .finish 1, .begin 2] ++ List.replicate 6 .ctl ++
    [.begin 3, .finish 3] ++ List.replicate 6 .ctl

/-- the calls of one kind about `n`, with the marks `(invalidated, started, done, failed)` of `n` -/
def Ex.marksOf (p : Event → Bool) (n : Node) (log : List (Event × Flags)) :
    List (Inval × Bool × Bool × Bool) :=
  (log.filter fun q => p q.1).map fun q =>
    (q.2.inval n, q.2.started n, q.2.done n, q.2.failed n)

/-- the history of one task in the marks: `before_run`, `on_run_log`, `after_run` -/
example : Ex.marksOf (fun e => match e with
      | .beforeRun _ n => n == 1 | .runLog n _ => n == 1 | .afterRun _ r _ => r.node == 1
      | _ => false) 1 (mexec Ex.three Ex.threeMoves).2 =
    [(.invalid, false, false, false), (.invalid, true, false, false), (.invalid, true, true, false)] := by
  decide +kernel

/-- all four statuses: what the marks of the node say at its `before_run`, and the status it gets -/
example : (mexec (Ex.cfg 2) Ex.done2).2.filterMap (fun q => match q.1 with
      | .beforeRun _ n => some (n, q.2.inval n, [1, 2, 3, 4, 5].filter q.2.failed)
      | _ => none) =
    [(1, .invalid, []), (5, .valid, [1]), (4, .invalid, [1]), (2, .invalid, [1]), (3, .invalid, [1])] ∧
    (recsOf (exec (Ex.cfg 2) Ex.done2).trace).map (fun r => (r.node, r.status)) =
      [(1, .fail), (5, .skip), (4, .ok), (2, .ok), (3, .depf)] := by
  decide +kernel

/-- The node of `C118_after_run` is that of the record.  The node handed to `after_run` beside it may be another
one (C16), and that one need not be done: here the record is that of 3 and the node 2, whose job still
executes. -/
example : ∃ er r f, (.afterRun er r 2, f) ∈ (mexec Ex.three Ex.threeMoves).2 ∧ r.node = 3 ∧
    f.done 3 = true ∧ f.done 2 = false := by
  have : ∃ q ∈ (mexec Ex.three Ex.threeMoves).2, (match q.1 with
      | .afterRun _ r n => decide (r.node = 3 ∧ n = 2)
      | _ => false) = true ∧ q.2.done 3 = true ∧ q.2.done 2 = false := by decide +kernel
  obtain ⟨⟨e, f⟩, he, h, h1, h2⟩ := this
  dsimp only at h h1 h2
  split at h
  · rename_i er r n
    simp at h
    obtain ⟨h3, rfl⟩ := h
    exact ⟨er, r, f, he, h3, h1, h2⟩
  · cases h

end Joque
