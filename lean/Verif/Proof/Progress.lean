import Verif.Proof.Phases

/-! Progress of the execution engine -/

namespace Joque

variable {C : Cfg}

/-- remaining work of one coroutine -/
def wt (w : Node → Worker) (h : Handle) : Nat :=
  if h.launched = false then 4
  else match w h.node with
    | .idle | .queued => 3
    | .running => 2
    | .finished => 1

/-- remaining work -/
def remaining (s : St) : Nat := 5 * s.toProcess.length + ((handles s).map (wt s.worker)).sum

/-- distance of the control thread to its next useful portion when all workers are settled -/
def dist (s : St) : Nat :=
  match s.phase with
  | .clean d => if s.todo ≠ [] then 0 else if d then 4 else if s.kept = [] then 1 else 5
  | .pick => if s.todo = [] then 0 else 4
  | .susp _ => 3
  | .loopTop => 2
  | .drainTop => 1
  | _ => 0

def Settled (s : St) : Prop := ∀ n, s.worker n = .idle ∨ s.worker n = .finished

/-- nothing prevents the execution from succeeding -/
structure Healthy (C : Cfg) : Prop where
  wf : C.dag.WF
  acyclic : ¬ Cyclic C.dag
  jobs : ∀ n ∈ C.dag.nodes, C.hasJob n = true
  answers : ∀ n ∈ C.dag.nodes, ∃ a, C.ask n = .answer a
  codes : ∀ n ∈ C.dag.nodes, ∀ rr, C.outcome n = .ret rr → rr.retcode ≠ none

theorem Healthy.code (h : Healthy C) {n : Node} (hn : n ∈ C.dag.nodes) :
    ∃ rc, (asyncLambda (C.outcome n)).retcode = some rc := by
  cases ho : C.outcome n with
  | ret rr =>
    cases hr : rr.retcode with
    | none => exact absurd hr (h.codes n hn rr ho)
    | some rc => exact ⟨rc, hr⟩
  | throwsStd w => exact ⟨1, rfl⟩
  | throwsOther => exact ⟨1, rfl⟩

theorem sum_le {α : Type} {f g : α → Nat} : ∀ {l : List α}, (∀ x ∈ l, f x ≤ g x) →
    (l.map f).sum ≤ (l.map g).sum
  | [], _ => by simp
  | x :: l, h => by
    have h1 := h x (by simp)
    have h2 := sum_le (l := l) (fun y hy => h y (by simp [hy]))
    simp; omega

theorem sum_lt {α : Type} {f g : α → Nat} : ∀ {l : List α}, (∀ x ∈ l, f x ≤ g x) →
    (∃ x ∈ l, f x < g x) → (l.map f).sum < (l.map g).sum
  | [], _, h => by simp at h
  | x :: l, h, he => by
    have h1 := h x (by simp)
    have h2 := sum_le (l := l) (fun y hy => h y (by simp [hy]))
    obtain ⟨y, hy, hlt⟩ := he
    rcases List.mem_cons.1 hy with rfl | hy
    · simp; omega
    · have := sum_lt (l := l) (fun y hy => h y (by simp [hy])) ⟨y, hy, hlt⟩
      simp; omega

theorem wt_pos {w : Node → Worker} {h : Handle} : 1 ≤ wt w h := by
  unfold wt; split
  · omega
  · split <;> omega

theorem remaining_collect {s : St} {ref : Node} {h : Handle} {rest : List Slot} {rc : Int}
    (hrc : (asyncLambda (C.outcome h.node)).retcode = some rc) :
    (collect C s ref h rest).toProcess = s.toProcess ∧ (collect C s ref h rest).kept = s.kept ∧
    (collect C s ref h rest).todo = rest ∧ (collect C s ref h rest).worker = s.worker ∧
    (collect C s ref h rest).phase = s.phase ∧
    (collect C s ref h rest).erec.runs.length = s.erec.runs.length + 1 ∧
    (collect C s ref h rest).trace.countP (· = .resumed) = s.trace.countP (· = .resumed) := by
  unfold collect
  simp only [hrc]
  unfold complete
  split <;> simp [St.emit, ExecRecord.push]

/-- removing the first element of `todo` -/
theorem remaining_removed {s s' : St} {sl : Slot} {rest : List Slot} (ht : s.todo = sl :: rest)
    (h1 : s'.toProcess = s.toProcess) (h2 : s'.kept = s.kept) (h3 : s'.todo = rest)
    (h4 : s'.worker = s.worker) : remaining s' < remaining s := by
  have := wt_pos (w := s.worker) (h := sl.h)
  simp only [remaining, handles, h1, h2, h3, h4, ht, List.map_append, List.map_cons,
    List.sum_append, List.sum_cons]
  omega

theorem ctl_clean (hG : Healthy C) {s : St} (hI : Inv C s) {d : Bool} (hp : s.phase = .clean d)
    {sl : Slot} {rest : List Slot} (ht : s.todo = sl :: rest) :
    (cleanStep C s true d).phase = .clean d ∧
    (remaining (cleanStep C s true d) < remaining s ∨
      (remaining (cleanStep C s true d) = remaining s ∧
        (cleanStep C s true d).worker = s.worker ∧ ¬ Settled s ∧ sl.h.launched = true ∧
        s.worker sl.h.node ≠ .finished)) ∧
    (C.threadCount = 0 → (cleanStep C s true d).todo = rest ∧
      (cleanStep C s true d).kept = s.kept ∧
      (cleanStep C s true d).toProcess = s.toProcess ∧
      (cleanStep C s true d).erec.runs.length = s.erec.runs.length + 1 ∧
      (cleanStep C s true d).trace.countP (· = .resumed) = s.trace.countP (· = .resumed)) := by
  have hact : s.phase.active = true := by rw [hp]; rfl
  have hmem : sl.h ∈ handles s := Inv.slot_mem ht
  have hn : sl.h.node ∈ C.dag.nodes := hI.handle_node hmem
  obtain ⟨rc, hrc⟩ := hG.code hn
  unfold cleanStep
  rw [ht]
  simp only
  split
  · rename_i hl
    have hl : sl.h.launched = false := by simpa using hl
    obtain ⟨f1, f2, f3⟩ := hI.fresh (by rw [hp]; simp) sl.h hmem hl
    unfold startRun
    simp only
    rw [if_neg (by rcases hI.inval_known hact hn with h | h <;> rw [h] <;> simp)]
    split
    · exact ⟨hp, .inl (remaining_removed ht rfl rfl rfl rfl), fun _ => by
        simp [complete, St.emit, ExecRecord.push]⟩
    · split
      · exact ⟨hp, .inl (remaining_removed ht rfl rfl rfl rfl), fun _ => by
          simp [complete, St.emit, ExecRecord.push]⟩
      · split
        · obtain ⟨c1, c2, c3, c4, c5, c6, c7⟩ := remaining_collect (C := C)
            (s := (({ s.emit (.beforeRun s.erec sl.h.node) with
              flags := { s.flags with started := setFlag s.flags.started sl.h.node }
              used := s.used ++ C.resources sl.h.node } : St).emit (.jobBegin sl.h.node true)).emit
              (.jobEnd sl.h.node)) (ref := sl.ref)
            (h := { sl.h with launched := true, start := s.now }) (rest := rest) hrc
          refine ⟨c5.trans hp, .inl (remaining_removed ht c1 c2 c3 c4), fun _ => ⟨c3, c2, c1, c6, ?_⟩⟩
          refine c7.trans ?_
          simp [St.emit]
        · rename_i h0
          refine ⟨hp, .inl ?_, fun h => absurd h h0⟩
          simp only [if_true]
          have hnd := hI.nodup
          unfold allNodes at hnd
          rw [List.append_assoc, List.nodup_append] at hnd
          have hnd := hnd.1
          simp only [handles, ht, List.map_append, List.map_cons] at hnd
          rw [List.nodup_append, List.nodup_cons] at hnd
          simp only [remaining, handles, ht, List.map_append, List.map_cons, List.sum_append,
            List.sum_cons, St.emit]
          have e1 : (s.kept.map (wt (setWorker s.worker sl.h.node .queued))) =
              s.kept.map (wt s.worker) := by
            apply List.map_congr_left
            intro x hx
            have : x.node ≠ sl.h.node :=
              hnd.2.2 x.node (List.mem_map_of_mem hx) sl.h.node (by simp)
            simp [wt, setWorker, this]
          have e2 : (rest.map Slot.h).map (wt (setWorker s.worker sl.h.node .queued)) =
              (rest.map Slot.h).map (wt s.worker) := by
            apply List.map_congr_left
            intro x hx
            have : x.node ≠ sl.h.node := by
              intro he
              exact hnd.2.1.1 (by rw [← he]; exact List.mem_map_of_mem hx)
            simp [wt, setWorker, this]
          rw [e1, e2]
          simp [wt, setWorker, hl]
  · rename_i hl
    have hl : sl.h.launched = true := by simpa using hl
    obtain ⟨l1, l2, _⟩ := hI.launched sl.h hmem hl
    split
    · obtain ⟨c1, c2, c3, c4, c5, c6, c7⟩ := remaining_collect (C := C) (s := s) (ref := sl.ref)
        (h := sl.h) (rest := rest) hrc
      exact ⟨c5.trans hp, .inl (remaining_removed ht c1 c2 c3 c4), fun _ => ⟨c3, c2, c1, c6, c7⟩⟩
    · rename_i hw
      refine ⟨hp, .inr ⟨?_, rfl, ?_⟩, fun h => absurd (hI.seq h _) l2⟩
      · simp only [remaining, handles, ht, List.map_append, List.map_cons, List.sum_append,
          List.sum_cons, List.map_nil, List.sum_nil]
        omega
      · refine ⟨fun hs => ?_, hl, hw⟩
        rcases hs sl.h.node with h | h
        · exact l2 h
        · exact hw h

theorem serase_length {n : Node} {l : List Node} (hn : n ∈ l) (hs : l.Nodup) :
    (serase n l).length + 1 = l.length := by
  have := (perm_serase hn hs).length_eq
  simpa using this

theorem pick_cases (hG : Healthy C) {s : St} (hI : Inv C s) (hp : s.phase = .pick) :
    (pickStep C s).phase = .susp false ∧ (pickStep C s).trace = s.trace ∧
    (pickStep C s).erec = s.erec ∧ (pickStep C s).worker = s.worker ∧
    (remaining (pickStep C s) < remaining s ∧ (pickStep C s).todo.length = s.todo.length + 1 ∨
      (remaining (pickStep C s) = remaining s ∧ s.todo ≠ [])) := by
  have hact : s.phase.active = true := by rw [hp]; rfl
  obtain ⟨hk, _⟩ := hI.notClean hact (by rw [hp]; rfl)
  unfold pickStep
  split
  · rename_i h
    refine ⟨rfl, rfl, rfl, rfl, .inr ⟨rfl, ?_⟩⟩
    intro he; rw [he] at h; simp at h
  · obtain ⟨r, hr, h1, h2⟩ := findCandidate_spec (res := C.resources) (f := s.flags)
      (used := s.used) hG.wf hI.tp_nodes
    rw [hr]
    cases r with
    | some n =>
      obtain ⟨hE, hn⟩ := h1 n rfl
      refine ⟨rfl, rfl, rfl, rfl, .inl ⟨?_, by simp⟩⟩
      have hnt : n ∈ s.toProcess := by
        have := hI.part hact n hn
        unfold allNodes at this
        simp only [List.mem_append] at this
        rcases this with (hn | hn) | hn
        · exfalso
          obtain ⟨x, hx, rfl⟩ := List.mem_map.1 hn
          have hl : x.launched = true := by
            simp only [handles, hk, List.nil_append] at hx
            obtain ⟨sl, hsl, rfl⟩ := List.mem_map.1 hx
            exact hI.pickLaunched hp sl hsl
          have := (hI.launched x hx hl).1
          rw [hE.notStarted] at this; cases this
        · have := (hI.doneIff n).2 hn
          rw [hE.notDone] at this; cases this
        · exact hn
      have hlen := serase_length hnt (sorted_nodup hI.tpSorted)
      simp only [remaining, handles, hk, List.nil_append, List.map_append, List.sum_append,
        List.map_cons, List.map_nil, List.sum_cons, List.sum_nil]
      have : wt s.worker { node := n, launched := false, start := 0 } = 4 := by simp [wt]
      rw [this]
      omega
    | none =>
      simp only
      split
      · rename_i hte
        obtain ⟨c, hc, hE⟩ := exists_eligible hG.wf hI hact (by simp [handles, hk, hte])
          (hI.tpNonempty (.inr hp))
        exact absurd hE (h2 rfl c hc)
      · rename_i hte
        exact ⟨rfl, rfl, rfl, rfl, .inr ⟨rfl, hte⟩⟩

theorem ctl_progress (hG : Healthy C) {s : St} (hI : Inv C s) (hact : s.phase.active = true)
    (hnf : s.phase ≠ .finished) :
    (ctlStep C s true).phase.active = true ∧
    (remaining (ctlStep C s true) < remaining s ∨
      (remaining (ctlStep C s true) = remaining s ∧ (ctlStep C s true).worker = s.worker ∧
        (Settled s → dist (ctlStep C s true) < dist s))) := by
  unfold ctlStep
  split <;> rename_i hp <;> (try (rw [hp] at hact; cases hact; done))
  · obtain ⟨hk, _⟩ := hI.notClean hact (by rw [hp]; rfl)
    split
    · exact ⟨rfl, .inr ⟨rfl, rfl, fun _ => by simp [dist, hp]⟩⟩
    · refine ⟨rfl, .inr ⟨rfl, rfl, fun _ => ?_⟩⟩
      simp only [dist, hp, St.emit, hk]
      split <;> simp
  · rename_i d
    cases ht : s.todo with
    | cons sl rest =>
      obtain ⟨c1, c2, _⟩ := ctl_clean hG hI hp ht
      refine ⟨by rw [c1]; rfl, ?_⟩
      rcases c2 with c2 | ⟨c2, c3, c4, _⟩
      · exact .inl c2
      · exact .inr ⟨c2, c3, fun h => absurd h c4⟩
    | nil =>
      have hz := zip_h (p := s.passed) (k := s.kept) hI.passedLen
      unfold cleanStep
      rw [ht]
      simp only
      refine ⟨by cases d <;> rfl, .inr ⟨?_, by trivial, fun _ => ?_⟩⟩
      · simp only [remaining, handles, ht, hz, List.map_nil, List.append_nil, List.nil_append]
      · have hlen : (List.zipWith Slot.mk s.passed s.kept) = [] ↔ s.kept = [] := by
          rw [← hz]; simp
        cases d
        · simp only [dist, hp, ht]
          by_cases hk : s.kept = []
          · simp [hk]
          · simp [hk, hlen]
        · simp [dist, hp, ht]
  · obtain ⟨c1, _, _, c4, c5⟩ := pick_cases hG hI hp
    refine ⟨by rw [c1]; rfl, ?_⟩
    rcases c5 with ⟨c5, _⟩ | ⟨c5, c6⟩
    · exact .inl c5
    · exact .inr ⟨c5, c4, fun _ => by simp [dist, c1, hp, c6]⟩
  · rename_i d
    refine ⟨by cases d <;> rfl, .inr ⟨rfl, rfl, fun _ => ?_⟩⟩
    cases d <;> simp [dist, hp]
  · split
    · exact ⟨rfl, .inr ⟨rfl, rfl, fun _ => by simp [dist, hp]⟩⟩
    · rename_i hte
      exact ⟨rfl, .inr ⟨rfl, rfl, fun _ => by simp [dist, hp, hte]⟩⟩
  · exact absurd hp hnf

theorem worker_progress {s : St} (hI : Inv C s) (hact : s.phase.active = true) (n : Node) :
    (s.worker n = .queued → (step C s (.begin n)).phase = s.phase ∧
      remaining (step C s (.begin n)) < remaining s) ∧
    (s.worker n ≠ .queued → step C s (.begin n) = s) ∧
    (s.worker n = .running → (step C s (.finish n)).phase = s.phase ∧
      remaining (step C s (.finish n)) < remaining s) ∧
    (s.worker n ≠ .running → step C s (.finish n) = s) := by
  have hd : s.phase.dead = false := by
    cases hp : s.phase <;> rw [hp] at hact <;> first | rfl | (cases hact)
  have hex : s.worker n = .queued ∨ s.worker n = .running → ∃ h ∈ handles s, h.node = n ∧
      h.launched = true := by
    intro h
    rcases hI.workerOnly n (by rcases h with h | h <;> rw [h] <;> simp) with ⟨_, hw⟩ | h'
    · rcases h with h | h <;> rw [h] at hw <;> cases hw
    · exact h'
  refine ⟨?_, ?_, ?_, ?_⟩
  · intro h
    simp only [step, hd, h, if_true, Bool.false_eq_true, if_false]
    refine ⟨rfl, ?_⟩
    simp only [remaining, handles, St.emit]
    apply Nat.add_lt_add_left
    apply sum_lt
    · intro x _
      unfold wt setWorker
      split
      · omega
      · by_cases hx : x.node = n
        · simp [hx, h]
        · simp [hx]
    · obtain ⟨x, hx, rfl, hl⟩ := hex (.inl h)
      exact ⟨x, hx, by simp [wt, setWorker, hl, h]⟩
  · intro h; simp [step, h]
  · intro h
    simp only [step, hd, h, if_true, Bool.false_eq_true, if_false]
    refine ⟨rfl, ?_⟩
    simp only [remaining, handles, St.emit]
    apply Nat.add_lt_add_left
    apply sum_lt
    · intro x _
      unfold wt setWorker
      split
      · omega
      · by_cases hx : x.node = n
        · simp [hx, h]
        · simp [hx]
    · obtain ⟨x, hx, rfl, hl⟩ := hex (.inr h)
      exact ⟨x, hx, by simp [wt, setWorker, hl, h]⟩
  · intro h; simp [step, h]

theorem prologue_healthy (hG : Healthy C) : (prologue C St.init).phase = .loopTop := by
  rcases prologue_spec hG.wf with ⟨h, _⟩ | ⟨_, _, h, _⟩ | ⟨_, pre, n, post, h1, _, h2, _⟩
  · exact absurd h hG.acyclic
  · exact h
  · have hn : n ∈ C.dag.nodes := ((toProcessOf_spec C.dag).2 n).1 (by rw [h1]; simp)
    exact absurd ⟨hG.jobs n hn, hG.answers n hn⟩ h2

end Joque
