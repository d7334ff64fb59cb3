import Verif.Spec.Trace
import Verif.Proof.ExecInv5

/-! Trace lemmas -/

namespace Joque

/-- `P pre e` for every event `e` of the history with the events `pre` before it. -/
def Always (P : List Event → Event → Prop) (tr : List Event) : Prop :=
  ∀ pre e post, tr = pre ++ e :: post → P pre e

theorem always_nil {P} : Always P [] := by
  intro pre e post h; simp at h

theorem always_snoc {P tr e} (h : Always P tr) (he : P tr e) : Always P (tr ++ [e]) := by
  intro pre e' post heq
  rcases List.eq_nil_or_concat post with rfl | ⟨post', x, rfl⟩
  · have := List.append_inj' (t₁ := [e]) (t₂ := [e']) heq rfl
    obtain ⟨h1, h2⟩ := this
    simp at h2; subst h1; subst h2; exact he
  · have heq' : tr ++ [e] = (pre ++ e' :: post') ++ [x] := by rw [heq]; simp
    have := List.append_inj' heq' rfl
    exact h pre e' post' this.1

theorem always_append {P tr} (h : Always P tr) {evs : List Event}
    (he : ∀ pre e post, evs = pre ++ e :: post → P (tr ++ pre) e) : Always P (tr ++ evs) := by
  induction evs using List.reverseRecOn with
  | nil => simpa using h
  | append_singleton evs e ih =>
    rw [← List.append_assoc]
    apply always_snoc
    · exact ih (fun pre e' post heq => he pre e' (post ++ [e]) (by rw [heq]; simp))
    · exact he evs e [] (by simp)

theorem life_append {n tr evs} : life n (tr ++ evs) = life n tr ++ life n evs := by
  simp [life]

theorem recsOf_append {tr evs} : recsOf (tr ++ evs) = recsOf tr ++ recsOf evs := by
  simp [recsOf]

theorem begin_mem_life {n tr} : JobBegan tr n ↔ ∃ b, Tag.begin b ∈ life n tr := by
  constructor
  · rintro ⟨b, h⟩
    exact ⟨b, List.mem_filterMap.2 ⟨_, h, by simp [tagOf]⟩⟩
  · rintro ⟨b, h⟩
    obtain ⟨e, he, ht⟩ := List.mem_filterMap.1 h
    unfold tagOf at ht
    split at ht <;> (try split at ht) <;> simp at ht
    rename_i m b' hm
    subst hm; exact ⟨b', he⟩

theorem end_mem_life {n tr} : JobEnded tr n ↔ Tag.end ∈ life n tr := by
  constructor
  · intro h
    exact List.mem_filterMap.2 ⟨_, h, by simp [tagOf]⟩
  · intro h
    obtain ⟨e, he, ht⟩ := List.mem_filterMap.1 h
    unfold tagOf at ht
    split at ht <;> (try split at ht) <;> simp at ht
    rename_i m hm
    subst hm; exact he

theorem noStart_resumed {tr} : NoStartSince (tr ++ [.resumed]) := by
  intro pre er n post heq
  rcases List.eq_nil_or_concat post with rfl | ⟨post', x, rfl⟩
  · have := List.append_inj' (t₁ := [Event.resumed]) heq rfl
    simp at this
  · have heq' : tr ++ [Event.resumed] = (pre ++ .beforeRun er n :: post') ++ [x] := by
      rw [heq]; simp
    have := (List.append_inj' heq' rfl).2
    simp at this; subst this; simp

theorem noStart_append {tr evs} (h : NoStartSince tr) (he : ∀ er n, Event.beforeRun er n ∉ evs) :
    NoStartSince (tr ++ evs) := by
  intro pre er n post heq
  rw [List.append_eq_append_iff] at heq
  rcases heq with ⟨as, h1, h2⟩ | ⟨bs, h1, h2⟩
  · exact absurd (by rw [h2]; simp) (he er n)
  · cases bs with
    | nil =>
      simp at h2
      exact absurd (by rw [← h2]; simp) (he er n)
    | cons b bs =>
      simp at h2
      obtain ⟨rfl, rfl⟩ := h2
      have := h pre er n bs h1
      simp [this]

/-- events of the prologue -/
def proEv : Event → Bool
  | .nodeEnque _ | .detectedCycle _ | .jobInval _ _ _ | .depInval _ _ => true
  | _ => false

/-- What holds at each event. -/
def Guard (C : Cfg) (pre : List Event) (e : Event) : Prop :=
  (∀ er, .afterExecution er ∉ pre) ∧
  match e with
  | .beforeRun er n => n ∈ C.dag.nodes ∧ (∀ m, AfterEdge C.dag n m → Recorded pre m) ∧
      ErecOK C.dag pre er ∧ NoStartSince pre
  | .jobBegin n b => (b = true ↔ C.threadCount = 0) ∧
      (∀ m, AfterEdge C.dag n m → Recorded pre m) ∧
      (∀ m, Running pre m → m ≠ n ∧ ∀ r ∈ C.resources n, r ∉ C.resources m) ∧
      (∀ l : List Node, l.Nodup → (∀ m ∈ l, Running pre m) → l.length < max 1 C.threadCount) ∧
      Stale C.dag C.ask n ∧
      (∀ m, HasEdge C.dag .requires n m → AfterEdge C.dag n m →
        ∃ r ∈ recsOf pre, r.node = m ∧ (r.status = .ok ∨ r.status = .skip))
  | .afterRun er r ref => ErecOK C.dag pre er ∧ (C.threadCount ≤ 1 → ref = r.node)
  | .onTick er => ErecOK C.dag pre er
  | .afterExecution er => ErecOK C.dag pre er ∧ ∀ n ∈ C.dag.nodes, Recorded pre n
  | _ => True

def workerLife : Worker → List Tag
  | .idle => [.before, .launch]
  | .queued => [.before, .launch]
  | .running => [.before, .launch, .begin false]
  | .finished => [.before, .launch, .begin false, .end]

def recLife (tc : Nat) : Status → List Tag
  | .skip | .depf => [.before, .after]
  | .ok | .fail =>
    if tc = 0 then [.before, .begin true, .end, .log, .after]
    else [.before, .launch, .begin false, .end, .log, .after]

/-- The history of a node whose coroutine was left by an exception of `before_run` or
`on_run_log`, or by undefined behaviour, in the portion that started it. -/
def Stopped (C : Cfg) (l : List Tag) : Prop :=
  l = [.before] ∨ (C.threadCount = 0 ∧
    (l = [.before, .begin true, .end] ∨ l = [.before, .begin true, .end, .log]))

/-- phases in which the prologue has not been executed -/
def noPro : List Phase := [.created, .destroying, .destroyed]

/-- phases after an exception of a visitor callback or of an allocation of the engine -/
def visPhases : List Phase :=
  [.unwinding .visitor, .threw .visitor, .unwinding .noMemory, .threw .noMemory, .destroying,
    .destroyed, .ub]

theorem unwinding_vis (f : Fault) : Phase.unwinding f.exc ∈ visPhases := by
  cases f <;> simp [visPhases, Fault.exc]

/-- The history is empty, or starts with the events of the prologue, or a callback threw in the
prologue. -/
def ProOK (C : Cfg) (p : Phase) (w : Node → Worker) (tr : List Event) : Prop :=
  (p ∈ noPro ∧ tr = []) ∨
  (∃ rest, tr = (prologue C St.init).trace ++ rest ∧ ∀ e ∈ rest, proEv e = false) ∨
  (p ∈ visPhases ∧ (∀ n, w n = .idle) ∧ tr <+: (prologue C St.init).trace)

structure TInv (C : Cfg) (s : St) : Prop where
  always : Always (Guard C) s.trace
  recs : recsOf s.trace = s.erec.runs
  lifeTp : ∀ n ∈ s.toProcess, life n s.trace = []
  lifeFresh : ∀ h ∈ handles s, h.launched = false → life h.node s.trace = [] ∨
    (s.phase.active = false ∧ Stopped C (life h.node s.trace))
  lifeLaunched : ∀ h ∈ handles s, h.launched = true →
    life h.node s.trace = workerLife (s.worker h.node) ∨
    (s.phase.active = false ∧ s.worker h.node = .finished ∧
      life h.node s.trace = workerLife .finished ++ [.log])
  lifeRec : ∀ r ∈ s.erec.runs, life r.node s.trace = recLife C.threadCount r.status
  lifeOther : ∀ n, n ∉ allNodes s → life n s.trace = [] ∨
    (n ∈ C.dag.nodes ∧ life n s.trace = [.before])
  pro : ProOK C s.phase s.worker s.trace
  slots : s.passed.length + s.todo.length ≤ max 1 C.threadCount
  refs : C.threadCount ≤ 1 → (∀ sl ∈ s.todo, sl.ref = sl.h.node) ∧
    ∀ sl ∈ List.zipWith Slot.mk s.passed s.kept, sl.ref = sl.h.node
  noStart : s.phase.active = true → (∃ h ∈ handles s, h.launched = false) →
    (∃ d, s.phase = .susp d) ∨ NoStartSince s.trace
  afterExec : ∀ er, .afterExecution er ∈ s.trace →
    s.phase ∈ Phase.finished :: visPhases ∧ handles s = []
  isFinished : s.phase = .finished → .afterExecution s.erec ∈ s.trace
  joined : (∃ e, s.phase = .threw e) ∨ s.phase = .destroyed →
    ∀ n, s.worker n = .idle ∨ s.worker n = .finished

theorem tinv_init (C : Cfg) : TInv C St.init := by
  constructor
  · exact always_nil
  · rfl
  · simp [St.init]
  · simp [St.init, handles]
  · simp [St.init, handles]
  · simp [St.init, ExecRecord.init]
  · simp [St.init, life]
  · exact .inl ⟨by simp [St.init, noPro], rfl⟩
  · simp [St.init]
  · simp [St.init]
  · simp [St.init, handles]
  · simp [St.init]
  · simp [St.init]
  · simp [St.init]

theorem TInv.life_launched {C s} (hT : TInv C s) (ha : s.phase.active = true) {h : Handle}
    (hm : h ∈ handles s) (hl : h.launched = true) :
    life h.node s.trace = workerLife (s.worker h.node) := by
  rcases hT.lifeLaunched h hm hl with h1 | ⟨h1, _⟩
  · exact h1
  · rw [ha] at h1; cases h1

theorem TInv.life_fresh {C s} (hT : TInv C s) (ha : s.phase.active = true) {h : Handle}
    (hm : h ∈ handles s) (hl : h.launched = false) : life h.node s.trace = [] := by
  rcases hT.lifeFresh h hm hl with h1 | ⟨h1, _⟩
  · exact h1
  · rw [ha] at h1; cases h1

theorem recorded_of_done {C s} (hI : Inv C s) (hT : TInv C s) {m} (h : s.flags.done m = true) :
    Recorded s.trace m := by
  have := (hI.doneIff m).1 h
  obtain ⟨r, hr, rfl⟩ := List.mem_map.1 this
  exact ⟨r, by rw [hT.recs]; exact hr, rfl⟩

theorem erecOK_of_inv {C s} (hI : Inv C s) (hT : TInv C s) (ha : s.phase.active = true) :
    ErecOK C.dag s.trace s.erec :=
  ⟨hT.recs.symm, hI.stats, hI.total ha⟩

theorem running_worker {C s} (_hI : Inv C s) (hT : TInv C s) {n} (h : Running s.trace n) :
    s.worker n = .running ∧ ∃ h ∈ handles s, h.node = n ∧ h.launched = true := by
  rw [Running, begin_mem_life, end_mem_life] at h
  by_cases hn : n ∈ allNodes s
  · unfold allNodes at hn
    simp only [List.mem_append] at hn
    rcases hn with (hn | hn) | hn
    · obtain ⟨x, hx, rfl⟩ := List.mem_map.1 hn
      cases hl : x.launched
      · rcases hT.lifeFresh x hx hl with h1 | ⟨_, h1 | ⟨_, h1 | h1⟩⟩ <;> rw [h1] at h <;> simp at h
      · rcases hT.lifeLaunched x hx hl with this | ⟨_, _, this⟩
        · rw [this] at h
          refine ⟨?_, x, hx, rfl, hl⟩
          cases hw : s.worker x.node <;> rw [hw] at h <;> simp [workerLife] at h ⊢
        · rw [this] at h; simp [workerLife] at h
    · obtain ⟨r, hr, rfl⟩ := List.mem_map.1 hn
      have := hT.lifeRec r hr
      rw [this] at h
      cases hs : r.status <;> rw [hs] at h <;> simp [recLife] at h <;> split at h <;> simp at h
    · rw [hT.lifeTp n hn] at h; simp at h
  · rcases hT.lifeOther n hn with h1 | ⟨_, h1⟩ <;> rw [h1] at h <;> simp at h

/-- no job is executing on a worker when there is one control thread only -/
theorem no_running_seq {C s} (hI : Inv C s) (hT : TInv C s) (h0 : C.threadCount = 0) {n} :
    ¬ Running s.trace n := by
  intro h
  have := (running_worker hI hT h).1
  rw [hI.seq h0 n] at this; cases this

theorem no_afterExec {C s} (hT : TInv C s)
    (h : s.phase ∉ Phase.finished :: visPhases ∨ handles s ≠ []) :
    ∀ er, Event.afterExecution er ∉ s.trace := by
  intro er hm
  have := hT.afterExec er hm
  rcases h with h | h
  · exact h this.1
  · exact h this.2

end Joque
