import Verif.Model.Lifetime
import Verif.Proof.Origin
import Verif.Props.Exec1
import Verif.Proof.Pace
import Verif.Model.JUnit
import Verif.Props.Outcome
import Verif.Model.Json

/-!
# How long tasks must exist (C114)
-/

namespace Joque

variable {C : Cfg}

/-! ## What is read -/

/-- What the library can learn of the task of node `n` is the same in both configurations. -/
structure TaskAgrees (C1 C2 : Cfg) (n : Node) : Prop where
  resources : C1.resources n = C2.resources n
  hasJob : C1.hasJob n = C2.hasJob n
  ask : C1.ask n = C2.ask n
  outcome : C1.outcome n = C2.outcome n

namespace Lifetime

theorem candLoop_congr {r1 r2 : Node → List Node → Option (Option Node × List Node)} (es : List Edge)
    (h : ∀ e ∈ es, ∀ seen, r1 e.tgt seen = r2 e.tgt seen) (seen : List Node) :
    candLoop r1 es seen = candLoop r2 es seen := by
  induction es generalizing seen with
  | nil => rfl
  | cons e es ih =>
    simp only [candLoop, h e (by simp)]
    split
    · rfl
    · rfl
    · exact ih (fun e' he' => h e' (by simp [he'])) _

theorem findCand_congr {g : Dag} {res1 res2 : Node → List Res} {f : Flags} {used : List Res} (hwf : g.WF)
    (h : ∀ n ∈ g.nodes, f.started n = false → f.done n = false →
      allDone f (filterEdges .after (g.outEdges n)) = true → res1 n = res2 n)
    (fuel : Nat) : ∀ n ∈ g.nodes, ∀ seen,
      findCand g res1 f used fuel n seen = findCand g res2 f used fuel n seen := by
  induction fuel with
  | zero => intros; rfl
  | succ fuel ih =>
    intro n hn seen
    simp only [findCand]
    split
    · rfl
    · rename_i hsk
      rw [candLoop_congr (filterEdges .after (g.outEdges n))
        (fun e he seen => ih e.tgt (hwf.closed e (mem_filterEdges_out.1 he).1).2 seen)]
      split
      · rfl
      · rfl
      · cases hd : allDone f (filterEdges .after (g.outEdges n)) with
        | false => simp
        | true =>
          simp only [Bool.or_eq_true, decide_eq_true_eq, not_or, Bool.not_eq_true] at hsk
          rw [h n hn hsk.1.1 hsk.1.2 hd]

theorem findCandTop_congr {g : Dag} {res1 res2 : Node → List Res} {f : Flags} {used : List Res} (hwf : g.WF)
    (h : ∀ n ∈ g.nodes, f.started n = false → f.done n = false →
      allDone f (filterEdges .after (g.outEdges n)) = true → res1 n = res2 n)
    (fuel : Nat) (tp : List Node) (htp : ∀ n ∈ tp, n ∈ g.nodes) (seen : List Node) :
    findCandTop g res1 f used fuel tp seen = findCandTop g res2 f used fuel tp seen := by
  induction tp generalizing seen with
  | nil => rfl
  | cons c cs ih =>
    simp only [findCandTop, findCand_congr hwf h fuel c (htp c (by simp))]
    split
    · rfl
    · rfl
    · exact ih (fun n hn => htp n (by simp [hn])) _

theorem queryLoop_congr {j1 j2 : Node → Bool} {a1 a2 : Node → InvalOut} (ns : List Node)
    (h : ∀ n ∈ ns, j1 n = j2 n ∧ a1 n = a2 n) (tp : List Node) (s : PSt) :
    queryLoop j1 a1 ns tp s = queryLoop j2 a2 ns tp s := by
  induction ns generalizing tp s with
  | nil => rfl
  | cons n ns ih =>
    have ih' := fun tp s => ih (fun m hm => h m (by simp [hm])) tp s
    simp only [queryLoop, (h n (by simp)).1, (h n (by simp)).2, ih']

theorem mem_toProcessOf {g : Dag} {n : Node} (h : n ∈ toProcessOf g) : n ∈ g.nodes := by
  have : ∀ (l tp : List Node), n ∈ l.foldl (fun tp n => sinsert n tp) tp → n ∈ l ∨ n ∈ tp := by
    intro l
    induction l with
    | nil => intro tp h; exact .inr h
    | cons a l ih =>
      intro tp h
      rcases ih _ h with h | h
      · exact .inl (by simp [h])
      · rcases mem_sinsert.1 h with h | h
        · exact .inl (by simp [h])
        · exact .inr h
  simpa using this g.nodes [] h

theorem collect_congr {C1 C2 : Cfg} {s s' : St} {ref : Node} {hd : Handle} {rest : List Slot}
    (hg : C1.dag = C2.dag) (h : TaskAgrees C1 C2 hd.node) (hs : s = s') :
    collect C1 s ref hd rest = collect C2 s' ref hd rest := by
  subst hs
  simp only [collect, ← hg, h.resources, h.outcome]

theorem startRun_congr {C1 C2 : Cfg} {s : St} {ok : Bool} {ref : Node} {hd : Handle} {rest : List Slot}
    (hg : C1.dag = C2.dag) (ht : C1.threadCount = C2.threadCount) (h : TaskAgrees C1 C2 hd.node) :
    startRun C1 s ok ref hd rest = startRun C2 s ok ref hd rest := by
  simp only [startRun, collect, ← hg, ← ht, h.resources, h.outcome]

theorem ctl_congr {C1 C2 : Cfg} (hwf : C1.dag.WF) {s : St} (hI : Inv C1 s) (hd : C1.dag = C2.dag)
    (ht : C1.threadCount = C2.threadCount)
    (h : ∀ n ∈ taskReads C1 s .ctl, TaskAgrees C1 C2 n) (ok : Bool) :
    ctlStep C1 s ok = ctlStep C2 s ok := by
  unfold ctlStep
  cases hp : s.phase with
  | created =>
    simp only [taskReads, hp] at h
    simp only [prologue, ← hd, propagateInvalidation]
    rw [queryLoop_congr (toProcessOf C1.dag) (fun n hn =>
      ⟨(h n (mem_toProcessOf hn)).hasJob, (h n (mem_toProcessOf hn)).ask⟩)]
  | clean d =>
    simp only [taskReads, hp] at h
    simp only [cleanStep]
    cases ht' : s.todo with
    | nil => rfl
    | cons sl rest =>
      simp only [ht'] at h
      by_cases hl : sl.h.launched = true
      · by_cases hw : s.worker sl.h.node = .finished
        · have h' := h sl.h.node (by simp [hw])
          simp only [hl, Bool.not_true, Bool.false_eq_true, if_false, hw, if_true]
          exact collect_congr hd h' rfl
        · simp [hl, hw]
      · have h' := h sl.h.node (by simp [hl])
        simp only [hl, Bool.not_false, if_true]
        exact startRun_congr hd ht h'
  | pick =>
    simp only [taskReads, hp] at h
    simp only [pickStep, ← ht, ← hd]
    by_cases hf : s.todo.length ≥ C1.threadCount ∧ C1.threadCount ≠ 0
    · rw [if_pos hf, if_pos hf]
    · rw [if_neg hf, if_neg hf]
      rw [if_neg hf] at h
      have hr : findCandidate C1.dag C1.resources s.flags s.used s.toProcess =
          findCandidate C1.dag C2.resources s.flags s.used s.toProcess := by
        refine findCandTop_congr hwf (fun n hn h1 h2 h3 => (h n ?_).resources) _ _
          (fun n hn => hI.inNodes n (by simp [allNodes, hn])) _
        simp [hn, h1, h2, h3]
      rw [hr]
  | _ => rfl

end Lifetime

/-- What a move does depends only on the tasks it reads. -/
theorem C114_reads (C1 C2 : Cfg) (hwf : C1.dag.WF) (ms : List Move) (m : Move) (hd : C1.dag = C2.dag)
    (ht : C1.threadCount = C2.threadCount)
    (h : ∀ n ∈ taskReads C1 (exec C1 ms) m, TaskAgrees C1 C2 n) :
    step C1 (exec C1 ms) m = step C2 (exec C1 ms) m := by
  have hI := inv_exec hwf ms
  cases m with
  | ctl => exact Lifetime.ctl_congr hwf hI hd ht h true
  | ctlFail => exact Lifetime.ctl_congr hwf hI hd ht h false
  | fault f =>
    have hc := Lifetime.ctl_congr hwf hI hd ht h true
    cases f with
    | visitor k => simp only [step, faultStep, throwStep, hc]
    | memory k => simp only [step, faultStep, throwStep, hc]
    | memoryBefore => simp only [step, faultStep, hc]
  | begin n => rfl
  | finish n => rfl
  | destroy => rfl

namespace Lifetime

theorem recorded_iff {s : St} (hT : TInv C s) {n : Node} : Recorded s.trace n ↔ n ∈ recNodes s := by
  simp [Recorded, hT.recs, recNodes]

theorem handle_not_rec {s : St} (hI : Inv C s) {h : Handle} (hm : h ∈ handles s) :
    h.node ∉ recNodes s := by
  have := hI.nodup
  simp only [allNodes, List.append_assoc] at this
  exact fun hr => (List.nodup_append.1 this).2.2 _ (List.mem_map_of_mem hm) _
    (List.mem_append_left _ hr) rfl

theorem reads_fresh {s : St} (hI : Inv C s) (m : Move) {n : Node} (h : n ∈ taskReads C s m) :
    n ∈ C.dag.nodes ∧ n ∉ recNodes s := by
  have hnode : ∀ h ∈ handles s, h.node ∈ C.dag.nodes := fun h hh =>
    hI.inNodes _ (by simp only [allNodes, List.mem_append]; exact .inl (.inl (List.mem_map_of_mem hh)))
  have hwork : ∀ n, s.worker n ≠ .idle → s.worker n ≠ .finished → n ∈ C.dag.nodes ∧ n ∉ recNodes s := by
    intro n h1 h2
    rcases hI.workerOnly n h1 with ⟨_, h3⟩ | ⟨h, hh, rfl, _⟩
    · exact absurd h3 h2
    · exact ⟨hnode h hh, handle_not_rec hI hh⟩
  have hctl : n ∈ taskReads C s .ctl → n ∈ C.dag.nodes ∧ n ∉ recNodes s := by
    intro h
    simp only [taskReads] at h
    split at h
    · rename_i hp
      rw [hI.createdInit hp]
      exact ⟨h, by simp [recNodes, St.init, ExecRecord.init]⟩
    · split at h
      · simp at h
      · rename_i sl rest htd
        split at h
        · simp only [List.mem_singleton] at h
          subst h
          have : sl.h ∈ handles s := by simp [handles, htd]
          exact ⟨hnode _ this, handle_not_rec hI this⟩
        · simp at h
    · split at h
      · simp at h
      · simp only [List.mem_filter, Bool.and_eq_true, Bool.not_eq_true'] at h
        refine ⟨h.1, fun hr => ?_⟩
        rw [(hI.doneIff n).2 hr] at h
        simp at h
    · simp at h
  cases m with
  | ctl => exact hctl h
  | ctlFail => exact hctl h
  | fault f => exact hctl h
  | begin k =>
    simp only [taskReads] at h
    split at h
    · rename_i hc
      simp only [Bool.and_eq_true, decide_eq_true_eq] at hc
      simp only [List.mem_singleton] at h
      subst h
      exact hwork n (by rw [hc.2]; simp) (by rw [hc.2]; simp)
    · simp at h
  | finish k =>
    simp only [taskReads] at h
    split at h
    · rename_i hc
      simp only [Bool.and_eq_true, decide_eq_true_eq] at hc
      simp only [List.mem_singleton] at h
      subst h
      exact hwork n (by rw [hc.2]; simp) (by rw [hc.2]; simp)
    · simp at h
  | destroy => simp [taskReads] at h

end Lifetime

/-- The task of node `n` is still needed: the execution has not recorded it, and either the execution goes
on or a thread has yet to end the job. -/
def StillNeeded (s : St) (n : Node) : Prop :=
  ¬ Recorded s.trace n ∧
    (s.phase = .created ∨ s.phase.active = true ∨ (.launch n ∈ s.trace ∧ ¬ JobEnded s.trace n))

namespace Lifetime

theorem pending {s : St} (hI : Inv C s) (hT : TInv C s) {n : Node} (h1 : s.worker n ≠ .idle)
    (h2 : s.worker n ≠ .finished) : .launch n ∈ s.trace ∧ ¬ JobEnded s.trace n := by
  rcases hI.workerOnly n h1 with ⟨_, h3⟩ | ⟨h, hh, rfl, hl⟩
  · exact absurd h3 h2
  · rcases hT.lifeLaunched h hh hl with h3 | ⟨_, h3, _⟩
    · rw [end_mem_life, launch_mem_life, h3]
      cases hw : s.worker h.node <;> simp_all [workerLife]
    · exact absurd h3 h2

theorem reads_needed {s : St} (hI : Inv C s) (hT : TInv C s) (m : Move) {n : Node}
    (h : n ∈ taskReads C s m) : n ∈ C.dag.nodes ∧ StillNeeded s n := by
  obtain ⟨h1, h2⟩ := reads_fresh hI m h
  refine ⟨h1, by rwa [recorded_iff hT], ?_⟩
  have hctl : n ∈ taskReads C s .ctl → s.phase = .created ∨ s.phase.active = true := by
    intro h
    simp only [taskReads] at h
    split at h
    · rename_i hp; exact .inl hp
    · rename_i hp; rw [hp]; exact .inr rfl
    · rename_i hp; rw [hp]; exact .inr rfl
    · simp at h
  cases m with
  | ctl => exact (hctl h).imp_right .inl
  | ctlFail => exact (hctl h).imp_right .inl
  | fault f => exact (hctl h).imp_right .inl
  | begin k =>
    simp only [taskReads] at h
    split at h
    · rename_i hc
      simp only [Bool.and_eq_true, decide_eq_true_eq] at hc
      simp only [List.mem_singleton] at h
      subst h
      exact .inr (.inr (pending hI hT (by rw [hc.2]; simp) (by rw [hc.2]; simp)))
    · simp at h
  | finish k =>
    simp only [taskReads] at h
    split at h
    · rename_i hc
      simp only [Bool.and_eq_true, decide_eq_true_eq] at hc
      simp only [List.mem_singleton] at h
      subst h
      exact .inr (.inr (pending hI hT (by rw [hc.2]; simp) (by rw [hc.2]; simp)))
    · simp at h
  | destroy => simp [taskReads] at h

theorem worker_of_pending {s : St} (hI : Inv C s) (hT : TInv C s) {n : Node} (hl : .launch n ∈ s.trace)
    (he : ¬ JobEnded s.trace n) : s.worker n = .queued ∨ s.worker n = .running := by
  rw [launch_mem_life] at hl
  rw [end_mem_life] at he
  by_cases hn : n ∈ allNodes s
  · simp only [allNodes, List.mem_append, List.mem_map] at hn
    rcases hn with (⟨h, hh, rfl⟩ | hn) | hn
    · by_cases hla : h.launched = true
      · rcases hT.lifeLaunched h hh hla with h1 | ⟨_, _, h1⟩
        · have := (hI.launched h hh hla).2.1
          rw [h1] at hl he
          cases hw : s.worker h.node <;> simp_all [workerLife]
        · rw [h1] at he; simp [workerLife] at he
      · rcases hT.lifeFresh h hh (by simpa using hla) with h1 | ⟨_, h1 | ⟨_, h1 | h1⟩⟩ <;>
          rw [h1] at hl <;> simp at hl
    · simp only [recNodes, List.mem_map] at hn
      obtain ⟨r, hr, rfl⟩ := hn
      rw [hT.lifeRec r hr] at hl he
      cases hs : r.status <;> rw [hs] at hl he <;> simp only [recLife] at hl he
      · split at hl <;> simp_all
      · simp at hl
      · simp at hl
      · split at hl <;> simp_all
    · rw [hT.lifeTp n hn] at hl; simp at hl
  · rcases hT.lifeOther n hn with h | ⟨_, h⟩ <;> rw [h] at hl <;> simp at hl

theorem runs_complete (s : St) (ref : Node) (rest : List Slot) (r : RunRecord) :
    recNodes (complete s ref rest r) = recNodes s ++ [r.node] := by
  simp [complete, recNodes, ExecRecord.push, St.emit]

theorem runs_collect {s : St} {ref : Node} {h : Handle} {rest : List Slot} :
    recNodes (collect C s ref h rest) = recNodes s ∨
    recNodes (collect C s ref h rest) = recNodes s ++ [h.node] := by
  simp only [collect]
  split
  · exact .inl rfl
  · right
    rw [runs_complete]
    split <;> rfl

theorem runs_startRun {s : St} {ok : Bool} {ref : Node} {h : Handle} {rest : List Slot} :
    recNodes (startRun C s ok ref h rest) = recNodes s ∨
    recNodes (startRun C s ok ref h rest) = recNodes s ++ [h.node] := by
  simp only [startRun]
  split
  · exact .inl rfl
  split
  · right; rw [runs_complete]; rfl
  split
  · right; rw [runs_complete]; rfl
  split
  · exact runs_collect
  split
  · exact .inl rfl
  · exact .inl rfl

/-- The portion that records a task reads it. -/
theorem ctl_records {s : St} (ok : Bool) {n : Node} (h1 : n ∉ recNodes s)
    (h2 : n ∈ recNodes (ctlStep C s ok)) : n ∈ taskReads C s .ctl := by
  have hsame : recNodes (ctlStep C s ok) = recNodes s → n ∈ taskReads C s .ctl := fun h =>
    absurd (h ▸ h2) h1
  unfold ctlStep at h2 hsame
  cases hp : s.phase with
  | created =>
    exfalso
    rw [hp] at h2
    simp only [prologue] at h2
    repeat' split at h2
    all_goals simp [recNodes, ExecRecord.init] at h2
  | clean d =>
    rw [hp] at h2 hsame
    simp only [cleanStep] at h2 hsame
    simp only [taskReads, hp] at hsame ⊢
    cases ht : s.todo with
    | nil => rw [ht] at hsame; exact absurd (hsame rfl) (by simp)
    | cons sl rest =>
      rw [ht] at h2 hsame
      simp only at h2 hsame ⊢
      split at h2
      · rename_i hl
        simp only [hl, Bool.true_or, if_true, List.mem_singleton]
        rcases runs_startRun (C := C) (s := s) (ok := ok) (ref := sl.ref) (h := sl.h) (rest := rest)
          with h | h
        · rw [h] at h2; exact absurd h2 h1
        · rw [h] at h2; simpa [h1] using h2
      · split at h2
        · rename_i hw
          simp only [hw, decide_true, Bool.or_true, if_true, List.mem_singleton]
          rcases runs_collect (C := C) (s := s) (ref := sl.ref) (h := sl.h) (rest := rest) with h | h
          · rw [h] at h2; exact absurd h2 h1
          · rw [h] at h2; simpa [h1] using h2
        · exact absurd h2 h1
  | pick =>
    rw [hp] at hsame
    refine hsame ?_
    simp only [pickStep]
    repeat' split
    all_goals rfl
  | loopTop => rw [hp] at hsame; refine hsame ?_; simp only; split <;> rfl
  | susp d => rw [hp] at hsame; exact hsame rfl
  | drainTop => rw [hp] at hsame; refine hsame ?_; simp only; split <;> rfl
  | finished => rw [hp] at hsame; exact hsame rfl
  | unwinding e => rw [hp] at hsame; refine hsame ?_; simp only; split <;> rfl
  | threw e => rw [hp] at hsame; exact hsame rfl
  | destroying => rw [hp] at hsame; refine hsame ?_; simp only; split <;> rfl
  | destroyed => rw [hp] at hsame; exact hsame rfl
  | ub => rw [hp] at hsame; exact hsame rfl
  | abort => rw [hp] at hsame; exact hsame rfl
  | outOfFuel => rw [hp] at hsame; exact hsame rfl

theorem step_records {s : St} (m : Move) {n : Node} (h1 : n ∉ recNodes s)
    (h2 : n ∈ recNodes (step C s m)) : n ∈ taskReads C s m := by
  cases m with
  | ctl => exact ctl_records true h1 h2
  | ctlFail => exact ctl_records false h1 h2
  | fault f =>
    have hthrow : ∀ f k, n ∈ recNodes (throwStep C s f k) → n ∈ taskReads C s .ctl := by
      intro f k h
      simp only [throwStep] at h
      repeat' split at h
      · exact ctl_records true h1 h
      · exact absurd h h1
      · exact ctl_records true h1 h
      · exact ctl_records true h1 h
    cases f with
    | visitor k => exact hthrow _ _ h2
    | memory k => exact hthrow _ _ h2
    | memoryBefore =>
      simp only [step, faultStep] at h2
      split at h2
      · exact absurd h2 h1
      · exact absurd h2 h1
      · exact absurd h2 h1
      · exact absurd h2 h1
      · exact ctl_records true h1 h2
  | begin k =>
    simp only [step] at h2
    repeat' split at h2
    all_goals exact absurd h2 h1
  | finish k =>
    simp only [step] at h2
    repeat' split at h2
    all_goals exact absurd h2 h1
  | destroy =>
    simp only [step, destroyStep] at h2
    split at h2 <;> exact absurd h2 h1

theorem execLife_snoc (C : Cfg) (l : List ((TaskId → Bool) × Move)) (p : (TaskId → Bool) × Move) :
    execLife C (l ++ [p]) = stepLife C (execLife C l) p.1 p.2 := by simp [execLife]

/-- While nothing that does not exist is read, the execution is the ordinary one. -/
theorem life_eq (l : List ((TaskId → Bool) × Move))
    (h : ∀ l1 p l2, l = l1 ++ p :: l2 → ∀ n ∈ taskReads C (exec C (l1.map Prod.snd)) p.2,
      p.1 (C.dag.task n) = true) : execLife C l = exec C (l.map Prod.snd) := by
  induction l using List.reverseRecOn with
  | nil => rfl
  | append_singleton l p ih =>
    have ih' := ih (fun l1 q l2 hl => h l1 q (l2 ++ [p]) (by rw [hl]; simp))
    rw [execLife_snoc, ih', List.map_append, List.map_singleton, exec_snoc, stepLife, if_pos]
    rw [List.all_eq_true]
    exact h l p [] (by simp)

theorem ub_stays (l : List ((TaskId → Bool) × Move)) (s : St) (h : s.phase = .ub) :
    (l.foldl (fun s p => stepLife C s p.1 p.2) s).phase = .ub := by
  induction l generalizing s with
  | nil => exact h
  | cons p l ih =>
    refine ih _ ?_
    simp only [stepLife]
    split
    · cases p.2 with
      | ctl => simp [step, ctlStep, h]
      | ctlFail => simp [step, ctlStep, h]
      | fault f =>
        have : ∀ f k, (throwStep C s f k) = s := by
          intro f k
          simp [throwStep, ctlStep, h]
        cases f <;> simp [step, faultStep, this, h, ctlStep]
      | begin n => simp [step, h, Phase.dead]
      | finish n => simp [step, h, Phase.dead]
      | destroy => simp [step, destroyStep, h]
    · rfl

/-- If the execution did not end in undefined behaviour, everything that was read existed. -/
theorem alive_of_ok (l : List ((TaskId → Bool) × Move)) (h : (execLife C l).phase ≠ .ub) :
    ∀ l1 p l2, l = l1 ++ p :: l2 → ∀ n ∈ taskReads C (exec C (l1.map Prod.snd)) p.2,
      p.1 (C.dag.task n) = true := by
  have key : ∀ l1 l2, l = l1 ++ l2 → execLife C l1 = exec C (l1.map Prod.snd) := by
    intro l1
    induction l1 using List.reverseRecOn with
    | nil => intros; rfl
    | append_singleton l1 p ih =>
      intro l2 hl
      have ih' := ih (p :: l2) (by rw [hl]; simp)
      rw [execLife_snoc, ih', List.map_append, List.map_singleton, exec_snoc, stepLife, if_pos]
      by_contra hc
      apply h
      rw [hl, execLife, List.foldl_append, ← execLife]
      refine ub_stays _ _ ?_
      rw [execLife_snoc, ih', stepLife, if_neg hc]
  intro l1 p l2 hl n hn
  by_contra hc
  apply h
  rw [hl, execLife, List.foldl_append, ← execLife, List.foldl_cons]
  refine ub_stays _ _ ?_
  rw [key l1 (p :: l2) hl, stepLife, if_neg]
  rw [List.all_eq_true]
  exact fun h' => hc (h' n hn)

end Lifetime

/-- **C114**.  An execution reads a task only as long as it is needed: until its record, and after the
execution was abandoned or has failed only until its job has ended, if it is on a thread.  Tasks that were
not selected are not read at all. -/
theorem C114_last (C : Cfg) (hwf : C.dag.WF) (ms : List Move) (m : Move) (n : Node)
    (h : n ∈ taskReads C (exec C ms) m) : n ∈ C.dag.nodes ∧ StillNeeded (exec C ms) n :=
  Lifetime.reads_needed (inv_exec hwf ms) (tinv_exec hwf ms) m h

/-- **C114**.  Once it is not needed any more, everything about a task may change: the execution goes on
as if nothing had changed. -/
theorem C114_unused (C : Cfg) (hwf : C.dag.WF) (l : List (Cfg × Move))
    (h : ∀ l1 p l2, l = l1 ++ p :: l2 → p.1.dag = C.dag ∧ p.1.threadCount = C.threadCount ∧
      ∀ n ∈ C.dag.nodes, StillNeeded (exec C (l1.map Prod.snd)) n → TaskAgrees C p.1 n) :
    l.foldl (fun s p => step p.1 s p.2) St.init = exec C (l.map Prod.snd) := by
  induction l using List.reverseRecOn with
  | nil => rfl
  | append_singleton l p ih =>
    have ih' := ih (fun l1 q l2 hl => h l1 q (l2 ++ [p]) (by rw [hl]; simp))
    obtain ⟨h1, h2, h3⟩ := h l p [] (by simp)
    rw [List.foldl_append, ih', List.map_append, List.map_singleton, exec_snoc]
    refine (C114_reads C p.1 hwf _ p.2 h1.symm h2.symm fun n hn => ?_).symm
    obtain ⟨h4, h5⟩ := C114_last C hwf _ p.2 n hn
    exact h3 n h4 h5

/-- **C114**.  It is enough that tasks exist while they are needed. -/
theorem C114_enough (C : Cfg) (hwf : C.dag.WF) (l : List ((TaskId → Bool) × Move))
    (h : ∀ l1 p l2, l = l1 ++ p :: l2 → ∀ n ∈ C.dag.nodes,
      StillNeeded (exec C (l1.map Prod.snd)) n → p.1 (C.dag.task n) = true) :
    execLife C l = exec C (l.map Prod.snd) :=
  Lifetime.life_eq l fun l1 p l2 hl n hn =>
    have := C114_last C hwf _ p.2 n hn
    h l1 p l2 hl n this.1 this.2

/-- **C114**.  The same for `exec(task_set, …)`: it is enough that every selected task exists until there is
a record that refers to it.  A task that was not selected is not needed after `exec` has returned. -/
theorem C114_tasks (E : BEnv) (ts : TaskSet) (univ visit : List TaskId)
    (order : List TaskId → List TaskId) (filter : Str) (s : BSt)
    (h : Run E ts univ visit order filter s) (tc : Nat) (l : List ((TaskId → Bool) × Move))
    (hl : ∀ l1 p l2, l = l1 ++ p :: l2 → ∀ t, Selected E.store ts filter t →
      (∀ r ∈ recsOf (exec (execCfg E.store s.dag tc) (l1.map Prod.snd)).trace, r.t ≠ t) →
      p.1 t = true) :
    execLife (execCfg E.store s.dag tc) l = exec (execCfg E.store s.dag tc) (l.map Prod.snd) := by
  refine C114_enough _ (h.wf tc) l fun l1 p l2 he n hn hs => hl l1 p l2 he _ (h.sel hn) fun r hr hrt => ?_
  obtain ⟨hI, hT⟩ := both_exec (h.wf tc) (l1.map Prod.snd)
  have hr' := hr
  rw [hT.recs] at hr'
  have h1 := (hI.recs r hr').t
  have h2 : r.node ∈ s.dag.nodes := hI.inNodes _ (by
    simp only [allNodes, List.mem_append]
    exact .inl (.inr (List.mem_map_of_mem hr')))
  have h3 : s.dag.task r.node = s.dag.task n := h1.symm.trans hrt
  exact hs.1 ⟨r, hr, h.taskInj h2 hn h3⟩

/-- **C114**.  And it is necessary: provided tasks that have been destroyed stay destroyed, an execution
comes to its end if and only if it does so anyway and every task exists in the move that makes its
record. -/
theorem C114_exact (C : Cfg) (hwf : C.dag.WF) (l : List ((TaskId → Bool) × Move))
    (hl : l.Pairwise (fun p q => ∀ t, q.1 t = true → p.1 t = true)) :
    (execLife C l).phase = .finished ↔
      (exec C (l.map Prod.snd)).phase = .finished ∧
      ∀ l1 p l2, l = l1 ++ p :: l2 → ∀ n, ¬ Recorded (exec C (l1.map Prod.snd)).trace n →
        Recorded (exec C (l1.map Prod.snd ++ [p.2])).trace n → p.1 (C.dag.task n) = true := by
  constructor
  · intro hf
    have hok := Lifetime.alive_of_ok l (by rw [hf]; simp)
    refine ⟨by rw [← Lifetime.life_eq l hok]; exact hf, ?_⟩
    intro l1 p l2 hl n h1 h2
    refine hok l1 p l2 hl n ?_
    rw [Lifetime.recorded_iff (tinv_exec hwf _)] at h1 h2
    rw [exec_snoc] at h2
    exact Lifetime.step_records p.2 h1 h2
  · rintro ⟨hf, h⟩
    rw [C114_enough C hwf l ?_]
    · exact hf
    rintro l1 p l2 rfl n hn ⟨h1, _⟩
    -- the move that records the task
    have key : ∀ (l3 : List ((TaskId → Bool) × Move)) (l4 : List ((TaskId → Bool) × Move)),
        l1 ++ p :: l2 = l3 ++ l4 → Recorded (exec C ((l3 ++ l4).map Prod.snd)).trace n →
        ¬ Recorded (exec C (l3.map Prod.snd)).trace n →
        ∃ l5 q l6, l4 = l5 ++ q :: l6 ∧ q.1 (C.dag.task n) = true := by
      intro l3 l4
      induction l4 generalizing l3 with
      | nil => intro _ h3 h4; rw [List.append_nil] at h3; exact absurd h3 h4
      | cons q l4 ih =>
        intro he h3 h4
        by_cases hr : Recorded (exec C ((l3 ++ [q]).map Prod.snd)).trace n
        · exact ⟨[], q, l4, rfl, h l3 q l4 he n h4 (by simpa using hr)⟩
        · obtain ⟨l5, q', l6, h5, h6⟩ := ih (l3 ++ [q]) (by rw [he]; simp) (by simpa using h3) hr
          exact ⟨q :: l5, q', l6, by rw [h5]; rfl, h6⟩
    have hrec : Recorded (exec C ((l1 ++ p :: l2).map Prod.snd)).trace n := by
      rw [Lifetime.recorded_iff (tinv_exec hwf _)]
      exact (C02_one_record C hwf _ hf).1.mem_iff.2 hn
    obtain ⟨l5, q, l6, h5, h6⟩ := key l1 (p :: l2) rfl hrec h1
    cases l5 with
    | nil => simp only [List.nil_append, List.cons.injEq] at h5; rw [h5.1]; exact h6
    | cons p' l5 =>
      simp only [List.cons_append, List.cons.injEq] at h5
      obtain ⟨rfl, rfl⟩ := h5
      rw [List.pairwise_append] at hl
      exact (List.pairwise_cons.1 hl.2.1).1 q (by simp) _ h6

/-- The moves, each made while exactly the tasks exist that have no record yet: each is destroyed as soon as
possible. -/
def Ex.lives (C : Cfg) (ms : List Move) : List ((TaskId → Bool) × Move) :=
  (List.range ms.length).map fun i =>
    (fun t => decide (t ∉ (exec C (ms.take i)).erec.runs.map RunRecord.t), ms.getD i .ctl)

/-- five tasks on two threads, each destroyed right after its record: the execution ends as usual -/
example : (execLife (Ex.cfg 2) (Ex.lives (Ex.cfg 2) Ex.done2)).phase = .finished ∧
    (Ex.lives (Ex.cfg 2) Ex.done2).map Prod.snd = Ex.done2 ∧
    ((Ex.lives (Ex.cfg 2) Ex.done2).getLast?.map fun p => [1, 2, 3, 4, 5].map p.1) =
      some [false, false, false, false, false] := by decide +kernel

/-- the task 3, which is not even executed because the task it requires failed, destroyed too early -/
example : (execLife (Ex.cfg 2) (Ex.done2.zipIdx.map fun p =>
    (fun t => decide (t ≠ 3 ∨ p.2 < 50), p.1))).phase = .ub := by decide +kernel

/-- **C114**.  If a task of the dag is gone before the first call of `tick()` (the task set was local to the
function that called `exec`, say), that call is undefined behaviour. -/
theorem C114_dangling (C : Cfg) (n : Node) (hn : n ∈ C.dag.nodes) (alive : TaskId → Bool)
    (hd : alive (C.dag.task n) = false) : (execLife C [(alive, .ctl)]).phase = .ub := by
  simp only [execLife, List.foldl_cons, List.foldl_nil, stepLife]
  rw [if_neg]
  rw [List.all_eq_true]
  intro h
  have := h n hn
  rw [hd] at this
  simp at this

/-- **C114**.  An execution that was abandoned or has failed needs exactly the tasks whose jobs a thread has
yet to end: without them the thread's next step is undefined behaviour. -/
theorem C114_abandoned (C : Cfg) (hwf : C.dag.WF) (ms : List Move) (n : Node)
    (hdead : (exec C ms).phase.dead = false)
    (hl : .launch n ∈ (exec C ms).trace) (he : ¬ JobEnded (exec C ms).trace n) :
    ∃ m, (m = .begin n ∨ m = .finish n) ∧ ∀ alive : TaskId → Bool, alive (C.dag.task n) = false →
      (stepLife C (exec C ms) alive m).phase = .ub := by
  obtain ⟨hI, hT⟩ := both_exec hwf ms
  have hw := Lifetime.worker_of_pending hI hT hl he
  rcases hw with hw | hw
  · refine ⟨.begin n, .inl rfl, fun alive ha => ?_⟩
    simp [stepLife, taskReads, hdead, hw, ha]
  · refine ⟨.finish n, .inr rfl, fun alive ha => ?_⟩
    simp [stepLife, taskReads, hdead, hw, ha]

/-- An execution on two threads is abandoned while task 1 is executed.  It is enough that this task exists
until its job has ended; if it does not, the end of its job is undefined behaviour. -/
example :
    let ms := List.replicate 10 Move.ctl ++ [.begin 1]
    let rest := [.destroy, .ctl, .finish 1, .ctl]
    Running (exec (Ex.par 2) ms).trace 1 ∧
    (execLife (Ex.par 2) (ms.map (fun m => (fun _ => true, m)) ++
      rest.map (fun m => (fun t => decide (t = 1), m)))).phase = .destroyed ∧
    (execLife (Ex.par 2) (ms.map (fun m => (fun _ => true, m)) ++
      rest.map (fun m => (fun t => decide (t ≠ 1), m)))).phase = .ub := by
  refine ⟨⟨⟨false, by decide +kernel⟩, by unfold JobEnded; decide +kernel⟩, by decide +kernel, by decide +kernel⟩

/-- **C114**.  The record itself can be used without the tasks: the summary line, the JUnit report and the
JSON export do not depend on the references to tasks in it. -/
theorem C114_reports (er : ExecRecord) (f : RunRecord → TaskId) (clock : Nat → Int) (hms stamp ts : Str)
    (secs : Int → Int → Str) (fmt : Int → Str) :
    let er' := { er with runs := er.runs.map fun r => { r with t := f r } }
    formatExecEnd hms clock er' = formatExecEnd hms clock er ∧
    junitXml clock (fun r => secs (clock r.start) (clock r.end)) stamp ts er' =
      junitXml clock (fun r => secs (clock r.start) (clock r.end)) stamp ts er ∧
    er'.toJson fmt clock = er.toJson fmt clock := by
  have hmin : ∀ (rs : List RunRecord) (r : RunRecord),
      (minStart clock { r with t := f r } (rs.map fun r => { r with t := f r })).start =
        (minStart clock r rs).start := by
    intro rs
    induction rs with
    | nil => intro r; rfl
    | cons a rs ih =>
      intro r
      simp only [List.map_cons, minStart]
      split <;> exact ih _
  have hmax : ∀ (rs : List RunRecord) (r : RunRecord),
      (maxEnd clock { r with t := f r } (rs.map fun r => { r with t := f r })).end =
        (maxEnd clock r rs).end := by
    intro rs
    induction rs with
    | nil => intro r; rfl
    | cons a rs ih =>
      intro r
      simp only [List.map_cons, maxEnd]
      split <;> exact ih _
  have hsum : runtimeSum clock { er with runs := er.runs.map fun r => { r with t := f r } } =
      runtimeSum clock er := by
    simp only [runtimeSum]
    cases er.runs with
    | nil => rfl
    | cons r rs => simp only [List.map_cons, hmin, hmax]
  refine ⟨?_, ?_, ?_⟩
  · simp only [formatExecEnd, hsum, endText]
  · simp only [junitXml, hsum, List.length_map, List.flatMap_map]
    rfl
  · simp only [ExecRecord.toJson, List.map_map]
    rfl

end Joque
