import Mathlib.Data.List.Nodup
import Mathlib.Data.List.Perm.Basic
import Verif.Model.Exec
import Verif.Proof.Candidate
import Verif.Proof.Inval

/-! # State invariant of the execution engine -/

namespace Joque

/-- all unfinished `run` coroutines -/
def handles (s : St) : List Handle := s.kept ++ s.todo.map Slot.h

def recNodes (s : St) : List Node := s.erec.runs.map RunRecord.node

def allNodes (s : St) : List Node := (handles s).map Handle.node ++ recNodes s ++ s.toProcess

/-- the execution is past its prologue and has not failed or been destroyed -/
def Phase.active : Phase → Bool
  | .loopTop | .clean _ | .pick | .susp _ | .drainTop | .finished => true
  | _ => false

def Phase.isClean : Phase → Bool
  | .clean _ => true
  | _ => false

def Phase.draining : Phase → Bool
  | .clean true | .susp true | .drainTop | .finished => true
  | _ => false

def badStatus (st : Status) : Bool := st = .fail || st = .depf

/-- what a record says about its node -/
structure RecOK (C : Cfg) (s : St) (r : RunRecord) : Prop where
  t : r.t = C.dag.task r.node
  name : r.name = C.dag.name r.node
  times : r.start ≤ r.end ∧ r.end ≤ s.trace.length
  preds : ∀ m, AfterEdge C.dag r.node m → s.flags.done m = true
  predTimes : ∀ r2 ∈ s.erec.runs, AfterEdge C.dag r.node r2.node → r2.end ≤ r.start
  noFail : r.status ≠ .depf → ∀ m, HasEdge C.dag .requires r.node m → AfterEdge C.dag r.node m →
    s.flags.failed m = false
  depf : r.status = .depf → r.retcode = 0 ∧ r.output = [] ∧
    ∃ m, HasEdge C.dag .requires r.node m ∧ s.flags.failed m = true
  skip : r.status = .skip → r.retcode = 0 ∧ r.output = [] ∧ s.flags.inval r.node = .valid
  ran : r.status = .ok ∨ r.status = .fail →
    s.flags.inval r.node = .invalid ∧
    (asyncLambda (C.outcome r.node)).retcode = some r.retcode ∧
    r.output = (asyncLambda (C.outcome r.node)).output ∧
    (r.status = .fail ↔ r.retcode ≠ 0)

structure Inv (C : Cfg) (s : St) : Prop where
  createdInit : s.phase = .created → s = St.init
  noAbort : s.phase ≠ .abort
  noFuel : s.phase ≠ .outOfFuel
  tpSorted : s.toProcess.Pairwise (· < ·)
  nodup : (allNodes s).Nodup
  inNodes : ∀ n ∈ allNodes s, n ∈ C.dag.nodes
  part : s.phase.active = true → ∀ n ∈ C.dag.nodes, n ∈ allNodes s
  doneIff : ∀ n, s.flags.done n = true ↔ n ∈ recNodes s
  failedIff : ∀ n, s.flags.failed n = true ↔
    ∃ r ∈ s.erec.runs, r.node = n ∧ badStatus r.status = true
  tpIdle : ∀ n ∈ s.toProcess, s.flags.started n = false
  launched : ∀ h ∈ handles s, h.launched = true →
    s.flags.started h.node = true ∧ s.worker h.node ≠ .idle ∧ s.flags.inval h.node = .invalid ∧
    (∀ m, HasEdge C.dag .requires h.node m → AfterEdge C.dag h.node m → s.flags.failed m = false) ∧
    (∀ r ∈ C.resources h.node, r ∈ s.used) ∧
    h.start ≤ s.trace.length ∧
    (∀ r ∈ s.erec.runs, AfterEdge C.dag h.node r.node → r.end ≤ h.start)
  fresh : s.phase ≠ .ub → ∀ h ∈ handles s, h.launched = false →
    s.flags.started h.node = false ∧ s.worker h.node = .idle ∧ (∀ r ∈ C.resources h.node, r ∉ s.used)
  preds : ∀ h ∈ handles s, ∀ m, AfterEdge C.dag h.node m → s.flags.done m = true
  workerOnly : ∀ n, s.worker n ≠ .idle →
    (n ∈ recNodes s ∧ s.worker n = .finished) ∨ ∃ h ∈ handles s, h.node = n ∧ h.launched = true
  seq : C.threadCount = 0 → ∀ n, s.worker n = .idle
  usedSub : s.phase.active = true → ∀ r ∈ s.used,
    ∃ h ∈ handles s, h.launched = true ∧ r ∈ C.resources h.node
  excl : ∀ h1 ∈ handles s, ∀ h2 ∈ handles s, h1.launched = true → h2.launched = true →
    h1.node ≠ h2.node → ∀ r ∈ C.resources h1.node, r ∉ C.resources h2.node
  lastFresh : ∀ sl ∈ s.todo.dropLast, sl.h.launched = true
  keptLaunched : ∀ h ∈ s.kept, h.launched = true
  pickLaunched : s.phase = .pick → ∀ sl ∈ s.todo, sl.h.launched = true
  cap : C.threadCount ≠ 0 → (handles s).length ≤ C.threadCount
  cap0 : C.threadCount = 0 → (handles s).length ≤ 1
  passedLen : s.kept.length ≤ s.passed.length
  notClean : s.phase.active = true → s.phase.isClean = false → s.kept = [] ∧ s.passed = []
  recs : ∀ r ∈ s.erec.runs, RecOK C s r
  stats : ∀ st, s.erec.stats.get st = s.erec.runs.countP (fun r => r.status = st)
  total : s.phase.active = true → s.erec.totalCount = C.dag.nodes.length
  inval : (∀ n, s.flags.inval n = .unknown) ∨
    (∀ n ∈ C.dag.nodes, (Stale C.dag C.ask n → s.flags.inval n = .invalid) ∧
      (¬ Stale C.dag C.ask n → s.flags.inval n = .valid))
  invalActive : s.phase.active = true →
    (∀ n ∈ C.dag.nodes, (Stale C.dag C.ask n → s.flags.inval n = .invalid) ∧
      (¬ Stale C.dag C.ask n → s.flags.inval n = .valid))
  acyc : s.phase.active = true → ¬ Cyclic C.dag
  answers : s.phase.active = true → ∀ n ∈ C.dag.nodes, Answers C.hasJob C.ask n
  drain : s.phase.draining = true → s.toProcess = []
  finishedEmpty : s.phase = .finished → s.todo = []
  tpNonempty : s.phase = .clean false ∨ s.phase = .pick → s.toProcess ≠ []

theorem inv_init (C : Cfg) : Inv C St.init := by
  constructor <;> first | (intro; rfl) | simp [St.init, handles, recNodes, allNodes, Phase.active, Phase.draining, ExecRecord.init]
  intro st; cases st <;> simp [Stats.get]

theorem RecOK.mono {C : Cfg} {s s' : St} {r : RunRecord} (h : RecOK C s r)
    (hlen : s.trace.length ≤ s'.trace.length)
    (hdone : ∀ m, s.flags.done m = true → s'.flags.done m = true)
    (hinval : s'.flags.inval = s.flags.inval)
    (hfail : ∀ m, s.flags.failed m = true → s'.flags.failed m = true)
    (hfail' : ∀ m, s.flags.done m = true → s'.flags.failed m = s.flags.failed m)
    (hruns : ∀ r2 ∈ s'.erec.runs, r2 ∈ s.erec.runs ∨ s.flags.done r2.node = false) :
    RecOK C s' r where
  t := h.t
  name := h.name
  times := ⟨h.times.1, Nat.le_trans h.times.2 hlen⟩
  preds := fun m hm => hdone m (h.preds m hm)
  predTimes := by
    intro r2 hr2 ha
    rcases hruns r2 hr2 with h1 | h1
    · exact h.predTimes r2 h1 ha
    · rw [h.preds _ ha] at h1; cases h1
  noFail := by
    intro hst m hm ha
    rw [hfail' m (h.preds m ha)]; exact h.noFail hst m hm ha
  depf := by
    intro hst
    obtain ⟨a, b, m, hm, hf⟩ := h.depf hst
    exact ⟨a, b, m, hm, hfail m hf⟩
  skip := by rw [hinval]; exact h.skip
  ran := by rw [hinval]; exact h.ran

/-- Steps that only add to the trace and change the phase. -/
theorem Inv.phase {C : Cfg} {s s' : St} (hI : Inv C s)
    (e1 : s'.toProcess = s.toProcess) (e2 : s'.flags = s.flags) (e3 : s'.used = s.used)
    (e4 : s'.todo = s.todo) (e5 : s'.kept = s.kept) (e6 : s'.passed = s.passed)
    (e7 : s'.worker = s.worker) (e8 : s'.erec = s.erec)
    (e9 : s.trace.length ≤ s'.trace.length)
    (p1 : s'.phase ≠ .created) (p2 : s'.phase ≠ .abort) (p3 : s'.phase ≠ .outOfFuel)
    (p4 : s'.phase.active = true → s.phase.active = true)
    (p5 : s'.phase ≠ .pick)
    (p6 : s'.phase.active = true → s'.phase.isClean = false → s.phase.isClean = false)
    (p7 : s'.phase.draining = true → s.toProcess = [])
    (p8 : s'.phase = .finished → s.todo = [])
    (p9 : s'.phase ≠ .ub → s.phase ≠ .ub ∨ handles s = [])
    (p10 : s'.phase = .clean false → s.toProcess ≠ []) : Inv C s' := by
  have hh : handles s' = handles s := by simp [handles, e4, e5]
  have hr : recNodes s' = recNodes s := by simp [recNodes, e8]
  have ha : allNodes s' = allNodes s := by simp [allNodes, hh, hr, e1]
  constructor
  · exact fun h => absurd h p1
  · exact p2
  · exact p3
  · rw [e1]; exact hI.tpSorted
  · rw [ha]; exact hI.nodup
  · rw [ha]; exact hI.inNodes
  · rw [ha]; exact fun h => hI.part (p4 h)
  · rw [e2, hr]; exact hI.doneIff
  · rw [e2, e8]; exact hI.failedIff
  · rw [e1, e2]; exact hI.tpIdle
  · rw [hh, e2, e3, e7, e8]
    intro h hm hl
    obtain ⟨a, b, c, d, e, f, g⟩ := hI.launched h hm hl
    exact ⟨a, b, c, d, e, Nat.le_trans f e9, g⟩
  · rw [hh, e2, e3, e7]
    intro h
    rcases p9 h with h | h
    · exact hI.fresh h
    · rw [h]; simp
  · rw [hh, e2]; exact hI.preds
  · rw [hh, e7, hr]; exact hI.workerOnly
  · rw [e7]; exact hI.seq
  · rw [hh, e3]; exact fun h => hI.usedSub (p4 h)
  · rw [hh]; exact hI.excl
  · rw [e4]; exact hI.lastFresh
  · rw [e5]; exact hI.keptLaunched
  · exact fun h => absurd h p5
  · rw [hh]; exact hI.cap
  · rw [hh]; exact hI.cap0
  · rw [e5, e6]; exact hI.passedLen
  · rw [e5, e6]; exact fun h h' => hI.notClean (p4 h) (p6 h h')
  · intro r hr'
    rw [e8] at hr'
    exact (hI.recs r hr').mono e9 (by rw [e2]; exact fun _ h => h) (by rw [e2])
      (by rw [e2]; exact fun _ h => h) (by rw [e2]; exact fun _ _ => rfl)
      (by rw [e8]; exact fun _ h => .inl h)
  · rw [e8]; exact hI.stats
  · rw [e8]; exact fun h => hI.total (p4 h)
  · rw [e2]; exact hI.inval
  · rw [e2]; exact fun h => hI.invalActive (p4 h)
  · exact fun h => hI.acyc (p4 h)
  · exact fun h => hI.answers (p4 h)
  · rw [e1]; exact p7
  · rw [e4]; exact p8
  · rw [e1]; rintro (h | h)
    · exact p10 h
    · exact absurd h p5

theorem inv_worker {C : Cfg} {s : St} (hI : Inv C s) {n : Node} {w : Worker} {e : Event}
    (h0 : s.worker n ≠ .idle) (hnf : s.worker n ≠ .finished) (hw : w ≠ .idle) :
    Inv C { s.emit e with worker := setWorker s.worker n w } := by
  have hne : ∀ m, setWorker s.worker n w m = .idle ↔ s.worker m = .idle := by
    intro m; unfold setWorker; split
    · rename_i h; subst h; simp [h0, hw]
    · rfl
  obtain ⟨h, hh, hn, hl⟩ : ∃ h ∈ handles s, h.node = n ∧ h.launched = true := by
    rcases hI.workerOnly n h0 with h | h
    · exact absurd h.2 hnf
    · exact h
  exact {
    createdInit := by
      intro hp
      have := hI.createdInit hp
      rw [this] at h0; simp [St.init] at h0
    noAbort := hI.noAbort
    noFuel := hI.noFuel
    tpSorted := hI.tpSorted
    nodup := hI.nodup
    inNodes := hI.inNodes
    part := hI.part
    doneIff := hI.doneIff
    failedIff := hI.failedIff
    tpIdle := hI.tpIdle
    launched := by
      intro h hm hl
      obtain ⟨a, b, c, d, e, f, g⟩ := hI.launched h hm hl
      refine ⟨a, ?_, c, d, e, ?_, g⟩
      · show setWorker s.worker n w h.node ≠ .idle
        rw [Ne, hne]; exact b
      · simp [St.emit]; omega
    fresh := by
      intro hu h hm hl
      obtain ⟨a, b, c⟩ := hI.fresh hu h hm hl
      exact ⟨a, (hne _).2 b, c⟩
    preds := hI.preds
    workerOnly := by
      intro m hm
      have hm' : s.worker m ≠ .idle := fun h => hm ((hne m).2 h)
      rcases hI.workerOnly m hm' with h1 | h1
      · have hmn : m ≠ n := by rintro rfl; exact hnf h1.2
        left; refine ⟨h1.1, ?_⟩
        show setWorker s.worker n w m = .finished
        simp [setWorker, hmn, h1.2]
      · exact .inr h1
    seq := by
      intro h0' m
      exact absurd (hI.seq h0' n) h0
    usedSub := hI.usedSub
    excl := hI.excl
    lastFresh := hI.lastFresh
    keptLaunched := hI.keptLaunched
    pickLaunched := hI.pickLaunched
    cap := hI.cap
    cap0 := hI.cap0
    passedLen := hI.passedLen
    notClean := hI.notClean
    recs := by
      intro r hr
      refine (hI.recs r hr).mono ?_ (fun _ h => h) rfl (fun _ h => h) (fun _ _ => rfl)
        (fun _ h => .inl h)
      simp [St.emit]
    stats := hI.stats
    total := hI.total
    inval := hI.inval
    invalActive := hI.invalActive
    acyc := hI.acyc
    answers := hI.answers
    drain := hI.drain
    finishedEmpty := hI.finishedEmpty
    tpNonempty := hI.tpNonempty }

theorem zip_h {p : List Node} {k : List Handle} (h : k.length ≤ p.length) :
    (List.zipWith Slot.mk p k).map Slot.h = k := by
  induction k generalizing p with
  | nil => simp
  | cons a k ih =>
    cases p with
    | nil => simp at h
    | cons b p => simp at h; simp [ih h]

/-- End of `cleanup_coros`. -/
theorem inv_cleanEnd {C : Cfg} {s : St} (hI : Inv C s) {d : Bool} (hp : s.phase = .clean d)
    (ht : s.todo = []) :
    Inv C { s with
      todo := List.zipWith Slot.mk s.passed s.kept
      kept := []
      passed := []
      phase := if d then .susp true else .pick } := by
  have hz := zip_h hI.passedLen
  have hh : ∀ {s'}, s' = ({ s with
      todo := List.zipWith Slot.mk s.passed s.kept
      kept := []
      passed := []
      phase := if d then .susp true else .pick } : St) → handles s' = handles s := by
    rintro s' rfl; simp [handles, ht, hz]
  have ha : ∀ {s'}, s' = ({ s with
      todo := List.zipWith Slot.mk s.passed s.kept
      kept := []
      passed := []
      phase := if d then .susp true else .pick } : St) → allNodes s' = allNodes s := by
    rintro s' rfl; simp only [allNodes, hh rfl]; rfl
  have hact : s.phase.active = true := by rw [hp]; rfl
  have hall : ∀ sl ∈ List.zipWith Slot.mk s.passed s.kept, sl.h.launched = true := by
    intro sl hsl
    have : sl.h ∈ (List.zipWith Slot.mk s.passed s.kept).map Slot.h := List.mem_map_of_mem hsl
    rw [hz] at this
    exact hI.keptLaunched _ this
  constructor
  · cases d <;> simp
  · cases d <;> simp
  · cases d <;> simp
  · exact hI.tpSorted
  · rw [ha rfl]; exact hI.nodup
  · rw [ha rfl]; exact hI.inNodes
  · rw [ha rfl]; exact fun _ => hI.part hact
  · exact hI.doneIff
  · exact hI.failedIff
  · exact hI.tpIdle
  · rw [hh rfl]; exact hI.launched
  · rw [hh rfl]; exact fun _ => hI.fresh (by simp [hp])
  · rw [hh rfl]; exact hI.preds
  · rw [hh rfl]; exact hI.workerOnly
  · exact hI.seq
  · rw [hh rfl]; exact fun _ => hI.usedSub hact
  · rw [hh rfl]; exact hI.excl
  · exact fun sl h => hall sl (List.dropLast_subset _ h)
  · simp
  · exact fun _ => hall
  · rw [hh rfl]; exact hI.cap
  · rw [hh rfl]; exact hI.cap0
  · simp
  · simp
  · exact fun r hr => (hI.recs r hr).mono (Nat.le_refl _) (fun _ h => h) rfl (fun _ h => h)
      (fun _ _ => rfl) (fun _ h => .inl h)
  · exact hI.stats
  · exact fun _ => hI.total hact
  · exact hI.inval
  · exact fun _ => hI.invalActive hact
  · exact fun _ => hI.acyc hact
  · exact fun _ => hI.answers hact
  · have := hI.drain
    rw [hp] at this
    cases d
    · simp [Phase.draining]
    · exact fun _ => this rfl
  · cases d <;> simp
  · have := hI.tpNonempty
    rw [hp] at this
    cases d
    · exact fun _ => this (.inl rfl)
    · simp

theorem mem_dropLast_of_tail {α : Type} {x a : α} {l : List α} (h : x ∈ l.dropLast) :
    x ∈ (a :: l).dropLast := by
  cases l with
  | nil => simp at h
  | cons b l => simp [List.dropLast]; right; exact h

/-- An unfinished element is kept. -/
theorem inv_keep {C : Cfg} {s : St} (hI : Inv C s) {d : Bool} (hp : s.phase = .clean d)
    {sl : Slot} {rest : List Slot} (ht : s.todo = sl :: rest) (hl : sl.h.launched = true) :
    Inv C { s with kept := s.kept ++ [sl.h], passed := s.passed ++ [sl.ref], todo := rest } := by
  have hh : ∀ {s'}, s' = ({ s with
      kept := s.kept ++ [sl.h]
      passed := s.passed ++ [sl.ref]
      todo := rest } : St) → handles s' = handles s := by
    rintro s' rfl; simp [handles, ht]
  have ha : ∀ {s'}, s' = ({ s with
      kept := s.kept ++ [sl.h]
      passed := s.passed ++ [sl.ref]
      todo := rest } : St) → allNodes s' = allNodes s := by
    rintro s' rfl; simp only [allNodes, hh rfl]; rfl
  constructor
  · simp [hp]
  · simp [hp]
  · simp [hp]
  · exact hI.tpSorted
  · rw [ha rfl]; exact hI.nodup
  · rw [ha rfl]; exact hI.inNodes
  · rw [ha rfl]; exact hI.part
  · exact hI.doneIff
  · exact hI.failedIff
  · exact hI.tpIdle
  · rw [hh rfl]; exact hI.launched
  · rw [hh rfl]; exact fun _ => hI.fresh (by simp [hp])
  · rw [hh rfl]; exact hI.preds
  · rw [hh rfl]; exact hI.workerOnly
  · exact hI.seq
  · rw [hh rfl]; exact hI.usedSub
  · rw [hh rfl]; exact hI.excl
  · intro x hx
    exact hI.lastFresh x (by rw [ht]; exact mem_dropLast_of_tail hx)
  · intro x hx
    simp at hx
    rcases hx with hx | rfl
    · exact hI.keptLaunched x hx
    · exact hl
  · simp [hp]
  · rw [hh rfl]; exact hI.cap
  · rw [hh rfl]; exact hI.cap0
  · have := hI.passedLen; simp; exact this
  · simp [hp, Phase.isClean]
  · exact fun r hr => (hI.recs r hr).mono (Nat.le_refl _) (fun _ h => h) rfl (fun _ h => h)
      (fun _ _ => rfl) (fun _ h => .inl h)
  · exact hI.stats
  · exact hI.total
  · exact hI.inval
  · exact hI.invalActive
  · exact hI.acyc
  · exact hI.answers
  · exact hI.drain
  · simp [hp]
  · exact hI.tpNonempty

end Joque
