import Verif.Proof.Preset3
import Verif.Proof.Preset2

/-! # When the `failed` marks given with a dag make no difference -/

namespace Joque

/-- more nodes marked as failed -/
def St.orF (s : St) (f : Node → Bool) : St :=
  { s with flags := { s.flags with failed := fun n => s.flags.failed n || f n } }

theorem setFlag_or (a f : Node → Bool) (x : Node) :
    setFlag (fun n => a n || f n) x = fun n => setFlag a x n || f n := by
  funext n
  unfold setFlag
  split <;> rfl

theorem collect_orF (C : Cfg) (s : St) (f : Node → Bool) (ref : Node) (h : Handle)
    (rest : List Slot) : collect C (s.orF f) ref h rest = (collect C s ref h rest).orF f := by
  unfold collect
  dsimp only
  split
  · rfl
  · split
    · simp only [St.emit, St.orF, St.now, complete, setFlag_or]
    · rfl

theorem clean_orF (C : Cfg) (s : St) (f : Node → Bool) (ok d : Bool)
    (hi : ∀ sl rest, s.todo = sl :: rest → sl.h.launched = false → s.flags.inval sl.h.node ≠ .unknown →
      anyDepFailed (s.orF f).flags (C.dag.outEdges sl.h.node) =
        anyDepFailed s.flags (C.dag.outEdges sl.h.node)) :
    cleanStep C (s.orF f) ok d = (cleanStep C s ok d).orF f := by
  unfold cleanStep
  have e : (s.orF f).todo = s.todo := rfl
  rw [e]
  cases ht : s.todo with
  | nil => rfl
  | cons sl rest =>
    dsimp only
    by_cases hl : sl.h.launched = false
    · rw [if_pos (by simp [hl]), if_pos (by simp [hl])]
      unfold startRun
      dsimp only
      have e2 : (s.orF f).flags.inval = s.flags.inval := rfl
      rw [e2]
      by_cases hu : s.flags.inval sl.h.node = .unknown
      · rw [if_pos hu, if_pos hu]; rfl
      · rw [if_neg hu, if_neg hu]
        have hi' := hi sl rest ht hl hu
        have e3 : ∀ ev, ((s.orF f).emit ev).flags.inval = (s.emit ev).flags.inval := fun _ => rfl
        have e4 : ∀ (ev : Event), anyDepFailed ((s.orF f).emit ev).flags (C.dag.outEdges sl.h.node) =
          anyDepFailed (s.emit ev).flags (C.dag.outEdges sl.h.node) := fun _ => hi'
        have e5 : (s.orF f).erec = s.erec := rfl
        rw [e4, e3, e5]
        split
        · simp only [St.emit, St.orF, St.now, complete, setFlag_or]
        · split
          · rfl
          · split
            · exact collect_orF C (((
                { s.emit (.beforeRun s.erec sl.h.node) with
                  flags := { s.flags with started := setFlag s.flags.started sl.h.node }
                  used := s.used ++ C.resources sl.h.node } : St).emit
                (.jobBegin sl.h.node true)).emit (.jobEnd sl.h.node)) f _ _ _
            · split <;> rfl
    · have hl' : ¬ (!sl.h.launched) = true := by simpa using hl
      rw [if_neg hl', if_neg hl']
      have e6 : (s.orF f).worker = s.worker := rfl
      rw [e6]
      split
      · exact collect_orF C s f _ _ _
      · rfl

theorem findCand_setF (g : Dag) (res : Node → List Res) (f : Flags) (i : Node → Bool)
    (used : List Res) : ∀ (fuel : Nat) (n : Node) (seen : List Node),
    findCand g res { f with failed := i } used fuel n seen = findCand g res f used fuel n seen := by
  intro fuel
  induction fuel with
  | zero => intro n seen; rfl
  | succ fuel ih =>
    intro n seen
    have : findCand g res { f with failed := i } used fuel = findCand g res f used fuel := by
      funext n seen; exact ih n seen
    unfold findCand
    rw [this]
    rfl

theorem findCandTop_setF (g : Dag) (res : Node → List Res) (f : Flags) (i : Node → Bool)
    (used : List Res) (fuel : Nat) : ∀ (ns seen : List Node),
    findCandTop g res { f with failed := i } used fuel ns seen =
      findCandTop g res f used fuel ns seen := by
  intro ns
  induction ns with
  | nil => intro seen; rfl
  | cons n ns ih =>
    intro seen
    unfold findCandTop
    rw [findCand_setF]
    split
    · rfl
    · rfl
    · exact ih _

theorem pick_orF (C : Cfg) (s : St) (f : Node → Bool) :
    pickStep C (s.orF f) = (pickStep C s).orF f := by
  unfold pickStep
  have e : findCandidate C.dag C.resources (s.orF f).flags (s.orF f).used (s.orF f).toProcess =
      findCandidate C.dag C.resources s.flags s.used s.toProcess :=
    findCandTop_setF ..
  have e1 : (s.orF f).todo = s.todo := rfl
  rw [e, e1]
  split
  · rfl
  · split
    · rfl
    · rfl
    · split <;> rfl

theorem prologue_orF (C : Cfg) (s : St) (f : Node → Bool) :
    prologue C (s.orF f) = (prologue C s).orF f := by
  unfold prologue
  dsimp only
  split
  · rfl
  · rfl
  · rfl
  · have e : (s.orF f).flags.inval = s.flags.inval := rfl
    rw [e]
    split <;> rfl

theorem ctl_orF {C : Cfg} {s : St} {f : Node → Bool}
    (hi : ∀ d sl rest, s.phase = .clean d → s.todo = sl :: rest → sl.h.launched = false →
      s.flags.inval sl.h.node ≠ .unknown →
      anyDepFailed (s.orF f).flags (C.dag.outEdges sl.h.node) =
        anyDepFailed s.flags (C.dag.outEdges sl.h.node)) (ok : Bool) :
    ctlStep C (s.orF f) ok = (ctlStep C s ok).orF f := by
  unfold ctlStep
  have e : (s.orF f).phase = s.phase := rfl
  rw [e]
  cases hp : s.phase with
  | created => exact prologue_orF C s f
  | loopTop =>
    dsimp only
    have e1 : (s.orF f).toProcess = s.toProcess := rfl
    rw [e1]
    split <;> rfl
  | clean d => exact clean_orF C s f ok d fun sl rest => hi d sl rest hp
  | pick => exact pick_orF C s f
  | susp d => rfl
  | drainTop =>
    dsimp only
    have e1 : (s.orF f).todo = s.todo := rfl
    rw [e1]
    split <;> rfl
  | finished => rfl
  | unwinding e =>
    dsimp only
    have e1 : joinable (s.orF f) = joinable s := rfl
    rw [e1]
    split <;> rfl
  | destroying =>
    dsimp only
    have e1 : joinable (s.orF f) = joinable s := rfl
    rw [e1]
    split <;> rfl
  | threw e => rfl
  | destroyed => rfl
  | ub => rfl
  | abort => rfl
  | outOfFuel => rfl

theorem step_orF {C : Cfg} {s : St} {f : Node → Bool}
    (hi : ∀ d sl rest, s.phase = .clean d → s.todo = sl :: rest → sl.h.launched = false →
      s.flags.inval sl.h.node ≠ .unknown →
      anyDepFailed (s.orF f).flags (C.dag.outEdges sl.h.node) =
        anyDepFailed s.flags (C.dag.outEdges sl.h.node)) (m : Move) :
    step C (s.orF f) m = (step C s m).orF f := by
  have e1 : (s.orF f).trace = s.trace := rfl
  have e2 : (s.orF f).phase = s.phase := rfl
  have e3 : (s.orF f).worker = s.worker := rfl
  cases m with
  | ctl => exact ctl_orF hi true
  | ctlFail => exact ctl_orF hi false
  | fault g =>
    show faultStep C (s.orF f) g = (faultStep C s g).orF f
    have key : ∀ k, throwStep C (s.orF f) g k = (throwStep C s g k).orF f := by
      intro k
      unfold throwStep
      rw [ctl_orF hi true]
      dsimp only
      have e4 : ((ctlStep C s true).orF f).trace = (ctlStep C s true).trace := rfl
      rw [e1, e4]
      split
      · split
        · split <;> rfl
        · rfl
      · rfl
    cases g with
    | visitor k => exact key k
    | memory k => exact key k
    | memoryBefore =>
      unfold faultStep
      dsimp only
      rw [e2]
      split
      all_goals first
        | rfl
        | exact ctl_orF hi true
  | begin x =>
    unfold step
    dsimp only
    rw [e2, e3]
    split
    · rfl
    · split <;> rfl
  | finish x =>
    unfold step
    dsimp only
    rw [e2, e3]
    split
    · rfl
    · split <;> rfl
  | destroy =>
    show destroyStep (s.orF f) = (destroyStep s).orF f
    unfold destroyStep
    rw [e2]
    split <;> rfl

/-- a coroutine about to check its dependencies, none of which failed: its job can be started or
its task is skipped -/
theorem start_seen {C : Cfg} {s : St} {d : Bool} {sl : Slot} {rest : List Slot}
    (hp : s.phase = .clean d) (ht : s.todo = sl :: rest) (hl : sl.h.launched = false)
    (hu : s.flags.inval sl.h.node ≠ .unknown)
    (hd : anyDepFailed s.flags (C.dag.outEdges sl.h.node) = false) :
    (∃ r ∈ (step C s .ctl).erec.runs, r.node = sl.h.node ∧ r.status = .skip) ∨
    (∃ b, .jobBegin sl.h.node b ∈ (step C (step C s .ctl) (.begin sl.h.node)).trace) := by
  have hcol : ∀ (s0 : St) h, ∀ e ∈ s0.trace, e ∈ (collect C s0 sl.ref h rest).trace := by
    intro s0 h e he
    unfold collect
    dsimp only
    split
    · exact he
    · unfold complete
      split <;> simp [St.emit, he]
  have hbeg : ∀ (s0 : St) n, ∀ e ∈ s0.trace, e ∈ (step C s0 (.begin n)).trace := by
    intro s0 n e he
    unfold step
    dsimp only
    split
    · exact he
    · split
      · exact List.mem_append_left _ he
      · exact he
  have hs : step C s .ctl = startRun C s true sl.ref sl.h rest := by
    show ctlStep C s true = _
    unfold ctlStep
    rw [hp]
    dsimp only
    unfold cleanStep
    rw [ht]
    dsimp only
    rw [if_pos (by simp [hl])]
  rw [hs]
  unfold startRun
  dsimp only
  have e3 : ∀ ev, (s.emit ev).flags = s.flags := fun _ => rfl
  rw [if_neg hu, e3, if_neg (by rw [hd]; simp)]
  by_cases hv : s.flags.inval sl.h.node = .valid
  · rw [if_pos hv]
    left
    exact ⟨_, List.mem_append_right _ (List.mem_singleton.2 rfl), rfl, rfl⟩
  · rw [if_neg hv]
    right
    by_cases h0 : C.threadCount = 0
    · rw [if_pos h0]
      exact ⟨true, hbeg _ _ _ (hcol _ _ _ (by simp [St.emit]))⟩
    · rw [if_neg h0, if_pos rfl]
      refine ⟨false, ?_⟩
      unfold step
      dsimp only
      rw [if_neg (by simp [St.emit, hp, Phase.dead]), if_pos (by simp [setWorker])]
      simp [St.emit]

theorem orF_exec {C : Cfg} {B : Flags} {f : Node → Bool}
    (H : ∀ ms x n, f n = true → HasEdge C.dag .requires x n →
      (∀ b, .jobBegin x b ∉ (execFrom C B ms).trace) ∧
      ∀ r ∈ (execFrom C B ms).erec.runs, r.node = x → r.status = .depf) (ms : List Move) :
    execFrom C { B with failed := fun n => B.failed n || f n } ms = (execFrom C B ms).orF f := by
  induction ms using List.reverseRecOn with
  | nil => rfl
  | append_singleton ms m ih =>
    have hsn : ∀ (F : Flags) (ms : List Move) m, execFrom C F (ms ++ [m]) = step C (execFrom C F ms) m := by
      intro F ms m; simp [execFrom]
    rw [hsn, hsn, ih]
    refine step_orF ?_ m
    intro d sl rest hp ht hl hu
    cases hd : anyDepFailed (execFrom C B ms).flags (C.dag.outEdges sl.h.node) with
    | true =>
      unfold anyDepFailed at hd ⊢
      rw [List.any_eq_true] at hd ⊢
      obtain ⟨e, he, hf⟩ := hd
      exact ⟨e, he, by simp [St.orF, hf]⟩
    | false =>
      by_contra hc
      rw [Bool.not_eq_false] at hc
      unfold anyDepFailed at hc
      rw [List.any_eq_true] at hc
      obtain ⟨e, he, hf⟩ := hc
      have hne : (execFrom C B ms).flags.failed e.tgt = false := by
        unfold anyDepFailed at hd
        rw [List.any_eq_false] at hd
        simpa using hd e he
      have hfe : f e.tgt = true := by
        simpa [St.orF, hne] using hf
      have hx : HasEdge C.dag .requires sl.h.node e.tgt := by
        obtain ⟨h1, h2, h3⟩ := mem_filterEdges_out.1 he
        rw [← h2]; rw [← h3]; exact h1
      rcases start_seen hp ht hl hu hd with ⟨r, hr, h1, h2⟩ | ⟨b, hb⟩
      · rw [← hsn] at hr
        have := (H _ _ _ hfe hx).2 r hr h1
        rw [h2] at this; cases this
      · rw [← hsn, ← hsn] at hb
        exact (H _ _ _ hfe hx).1 b hb

end Joque
