import Verif.Props.Tick
import Verif.Props.Deliver

/-! # C79: ticks report promptly and are not wasted -/

namespace Joque

variable {C : Cfg}

/-- the start or the end of a task is reported -/
def Event.isReport : Event → Bool
  | .beforeRun _ _ | .afterRun _ _ _ => true
  | _ => false

/-- some task is started or recorded among these events -/
def Busy (evs : List Event) : Prop := ∃ e ∈ evs, e.isReport = true

/-- What a complete tick does (`pre`: history before it, `mid`: what happens in it).  A job on a
thread that had ended before is recorded by its end; and unless it is the first tick, it starts or
records some task, or some job on a thread had not ended before. -/
def PromptOK (pre mid : List Event) : Prop :=
  (∀ n, Event.launch n ∈ pre → JobEnded pre n → Recorded (pre ++ .resumed :: mid) n) ∧
  (pre ≠ [] → Busy mid ∨ ∃ n, Event.launch n ∈ pre ∧ ¬ JobEnded pre n)

theorem Busy.append_left {a b : List Event} (h : Busy a) : Busy (a ++ b) := by
  obtain ⟨e, he, h⟩ := h; exact ⟨e, List.mem_append_left _ he, h⟩

theorem Busy.append_right {a b : List Event} (h : Busy b) : Busy (a ++ b) := by
  obtain ⟨e, he, h⟩ := h; exact ⟨e, List.mem_append_right _ he, h⟩

/-- what is known of the tick under way -/
structure Cur (s : St) (pre mid : List Event) : Prop where
  kept : s.phase.isClean = true → ∀ h ∈ s.kept, ¬ JobEnded pre h.node
  todo : s.phase = .pick ∨ (∃ d, s.phase = .susp d) → ∀ sl ∈ s.todo, ¬ JobEnded pre sl.h.node
  launch : ∀ n, Event.launch n ∈ mid → Busy mid
  top : pre ≠ [] → s.phase = .loopTop → s.todo ≠ []
  clean : pre ≠ [] → s.phase.isClean = true → Busy mid ∨ s.todo ≠ [] ∨ s.kept ≠ []
  pick : pre ≠ [] → s.phase = .pick ∨ (∃ d, s.phase = .susp d) →
    Busy mid ∨ ∃ sl ∈ s.todo, sl.h.launched = true
  susp : s.phase = .susp false → s.todo ≠ []

def PromptInv (s : St) : Prop :=
  Ticks PromptOK s.trace ∧ (s.phase.active = true →
    ∃ pre mid, s.trace = pre ++ Event.resumed :: mid ∧ Event.resumed ∉ mid ∧ Cur s pre mid)

theorem complete_shape {s : St} (ref : Node) (rest : List Slot) (r : RunRecord) :
    ∃ evs, (complete s ref rest r).trace = s.trace ++ evs ∧ Busy evs ∧ Event.resumed ∉ evs ∧
      (complete s ref rest r).kept = s.kept :=
  ⟨_, rfl, ⟨_, List.mem_singleton_self _, rfl⟩, by simp, rfl⟩

theorem collect_shape {s : St} (ref : Node) (h : Handle) (rest : List Slot)
    (ha : (collect C s ref h rest).phase ≠ .ub) :
    ∃ evs, (collect C s ref h rest).trace = s.trace ++ evs ∧ Busy evs ∧ Event.resumed ∉ evs ∧
      (collect C s ref h rest).kept = s.kept := by
  have key : ∀ (X : St) (ev : Event), X.trace = s.trace ++ [ev] → ev ≠ .resumed → X.kept = s.kept →
      ∀ ref rest r, ∃ evs, (complete X ref rest r).trace = s.trace ++ evs ∧ Busy evs ∧
        Event.resumed ∉ evs ∧ (complete X ref rest r).kept = s.kept := by
    intro X ev h1 h0 h2 ref rest r
    obtain ⟨evs, e1, e2, e3, e4⟩ := complete_shape (s := X) ref rest r
    exact ⟨ev :: evs, by rw [e1, h1]; simp, e2.append_right (a := [ev]), by simp [e3, h0.symm],
      by rw [e4, h2]⟩
  unfold collect at *
  dsimp only at *
  split
  · rename_i he; rw [he] at ha; exact absurd rfl ha
  · refine key _ (.runLog h.node (asyncLambda (C.outcome h.node)).log) ?_ (by simp) ?_ _ _ _ <;>
      dsimp only <;> split <;> rfl

theorem start_shape {s : St} (ok : Bool) (ref : Node) (h : Handle) (rest : List Slot)
    (ha : (startRun C s ok ref h rest).phase = s.phase) (hs : s.phase.active = true) :
    ∃ evs, (startRun C s ok ref h rest).trace = s.trace ++ evs ∧ Busy evs ∧ Event.resumed ∉ evs ∧
      (startRun C s ok ref h rest).kept = s.kept := by
  have hb : ∀ evs, Busy (Event.beforeRun s.erec h.node :: evs) := fun evs =>
    ⟨_, List.mem_cons_self, rfl⟩
  unfold startRun at *
  dsimp only at *
  split
  · rename_i he; rw [if_pos he] at ha; rw [← ha] at hs; cases hs
  · rename_i he
    rw [if_neg he] at ha
    split
    · exact ⟨[_, _], by simp only [complete, St.emit, List.append_assoc]; rfl, hb _, by simp, rfl⟩
    · rename_i he
      rw [if_neg he] at ha
      split
      · exact ⟨[_, _], by simp only [complete, St.emit, List.append_assoc]; rfl, hb _, by simp, rfl⟩
      · rename_i he
        rw [if_neg he] at ha
        split
        · rename_i he
          rw [if_pos he] at ha
          obtain ⟨evs, h1, h2, h3, h4⟩ := collect_shape (C := C) _ _ _ (by
            intro hu; rw [hu] at ha; rw [← ha] at hs; cases hs)
          refine ⟨_, by rw [h1]; simp only [St.emit, List.append_assoc]; rfl, hb _, by simpa using h3, h4⟩
        · rename_i he
          rw [if_neg he] at ha
          split
          · exact ⟨[_, _], by simp only [St.emit, List.append_assoc]; rfl, hb _, by simp, rfl⟩
          · rename_i he
            rw [if_neg he] at ha; simp at ha; rw [← ha] at hs; cases hs

theorem clean_shape {s : St} {ok d : Bool} (hp : s.phase = .clean d) {sl : Slot} {rest : List Slot}
    (ht : s.todo = sl :: rest) (ha : (cleanStep C s ok d).phase.active = true) :
    (cleanStep C s ok d).phase = .clean d ∧
    ((∃ evs, (cleanStep C s ok d).trace = s.trace ++ evs ∧ Busy evs ∧ Event.resumed ∉ evs ∧
        (cleanStep C s ok d).kept = s.kept) ∨
      ((cleanStep C s ok d).trace = s.trace ∧ (cleanStep C s ok d).kept = s.kept ++ [sl.h] ∧
        s.worker sl.h.node ≠ .finished ∧ sl.h.launched = true)) := by
  have hs : s.phase.active = true := by rw [hp]; rfl
  unfold cleanStep at *
  rw [ht] at *
  dsimp only at *
  split
  · rename_i he
    rw [if_pos he] at ha
    rcases phase_startRun (C := C) (s := s) (ok := ok) (ref := sl.ref) (h := sl.h) (rest := rest)
      with h | h | ⟨h, _⟩ | ⟨h, _⟩
    · exact ⟨by rw [h, hp], .inl (start_shape ok _ _ _ h hs)⟩
    all_goals rw [h] at ha; cases ha
  · rename_i he
    rw [if_neg he] at ha
    split
    · rename_i hw
      rw [if_pos hw] at ha
      rcases phase_collect (C := C) (s := s) (ref := sl.ref) (h := sl.h) (rest := rest)
        with h | ⟨h, _⟩
      · exact ⟨by rw [h, hp], .inl (collect_shape _ _ _ (by rw [h, hp]; simp))⟩
      · rw [h] at ha; cases ha
    · rename_i hw
      exact ⟨hp, .inr ⟨rfl, rfl, hw, by simpa using he⟩⟩

/-- a job whose thread has not finished has not ended -/
theorem not_ended {s : St} (hT : TInv C s) (ha : s.phase.active = true) {h : Handle}
    (hh : h ∈ handles s) (hl : h.launched = true) (hw : s.worker h.node ≠ .finished) :
    ¬ JobEnded s.trace h.node := by
  rw [end_mem_life, hT.life_launched ha hh hl]
  revert hw
  cases s.worker h.node <;> simp [workerLife]

theorem prompt_ctl (hwf : C.dag.WF) {s : St} (hI : Inv C s) (hT : TInv C s) (h : PromptInv s)
    (ok : Bool) : PromptInv (ctlStep C s ok) := by
  obtain ⟨hA, hB⟩ := h
  cases hp : s.phase with
  | created =>
    have hs := hI.createdInit hp
    have he : ctlStep C s ok = prologue C St.init := by
      unfold ctlStep; rw [hp]; simp only; rw [hs]
    obtain ⟨mid, h1, h2, h3⟩ := prologue_tail hwf
    have hno : Event.resumed ∉ mid := fun hm => by have := h2 _ hm; simp [proEv] at this
    obtain ⟨t1, t2, _⟩ := prologue_todo (C := C)
    rw [he]
    refine ⟨?_, fun hact => ⟨[], mid, h1, hno, ?_⟩⟩
    · intro pre mid' post heq hm'
      rw [h1] at heq
      exfalso
      cases pre with
      | nil =>
        have := (List.cons.inj heq).2
        exact hno (by rw [this]; simp)
      | cons e pre =>
        have := (List.cons.inj heq).2
        exact hno (by rw [this]; simp)
    · refine ⟨fun _ h => by rw [t2]; simp, fun _ => by rw [t1]; simp, fun n hn => ?_,
        fun h => absurd rfl h, fun h => absurd rfl h, fun h => absurd rfl h, fun h => ?_⟩
      · have := h2 _ hn; simp [proEv] at this
      · rcases prologue_spec hwf with ⟨_, c, _, hp, _⟩ | ⟨_, _, hp, _⟩ |
            ⟨_, pre, n, post, _, _, _, _, ⟨_, hp⟩ | ⟨_, w, _, hp⟩⟩ <;> rw [hp] at h <;> cases h
  | loopTop =>
    obtain ⟨pre, mid, h1, h2, h3⟩ := hB (by rw [hp]; rfl)
    obtain ⟨k1, _⟩ := hI.notClean (by rw [hp]; rfl) (by rw [hp]; rfl)
    unfold ctlStep
    rw [hp]
    dsimp only
    split
    · refine ⟨hA, fun _ => ⟨pre, mid, h1, h2, ?_⟩⟩
      constructor
      · intro h; cases h
      · rintro (h | ⟨d, h⟩) <;> cases h
      · exact h3.launch
      · intro _ h; cases h
      · intro _ h; cases h
      · rintro _ (h | ⟨d, h⟩) <;> cases h
      · intro h; cases h
    · refine ⟨hA.append (by simp), fun _ => ⟨pre, mid ++ [.onTick s.erec], ?_, ?_, ?_⟩⟩
      · show s.trace ++ _ = _; rw [h1]; simp
      · simpa using h2
      · constructor
        · intro _ h hh
          replace hh : h ∈ s.kept := hh
          rw [k1] at hh; cases hh
        · rintro (h | ⟨d, h⟩) <;> cases h
        · intro n hn
          exact (h3.launch n (by simpa using hn)).append_left
        · intro _ h; cases h
        · intro hne _; exact .inr (.inl (h3.top hne hp))
        · rintro _ (h | ⟨d, h⟩) <;> cases h
        · intro h; cases h
  | clean d =>
    have hact : s.phase.active = true := by rw [hp]; rfl
    obtain ⟨pre, mid, h1, h2, h3⟩ := hB hact
    have he : ctlStep C s ok = cleanStep C s ok d := by unfold ctlStep; rw [hp]
    rw [he]
    cases ht : s.todo with
    | nil =>
      have hq : cleanStep C s ok d = { s with
          todo := List.zipWith Slot.mk s.passed s.kept
          kept := [], passed := []
          phase := if d then .susp true else .pick } := by unfold cleanStep; rw [ht]
      rw [hq]
      have hmem : ∀ sl ∈ List.zipWith Slot.mk s.passed s.kept, sl.h ∈ s.kept := by
        intro sl hsl
        have : sl.h ∈ (List.zipWith Slot.mk s.passed s.kept).map Slot.h := List.mem_map_of_mem hsl
        rwa [zip_h hI.passedLen] at this
      refine ⟨hA, fun _ => ⟨pre, mid, h1, h2, ?_⟩⟩
      constructor
      · intro h; cases d <;> cases h
      · intro _ sl hsl
        exact h3.kept (by rw [hp]; rfl) _ (hmem sl hsl)
      · exact h3.launch
      · intro _ h; cases d <;> cases h
      · intro _ h; cases d <;> cases h
      · intro hne _
        rcases h3.clean hne (by rw [hp]; rfl) with h | h | h
        · exact .inl h
        · exact absurd ht h
        · right
          have hlen : (List.zipWith Slot.mk s.passed s.kept).length ≠ 0 := by
            have := hI.passedLen
            have : s.kept.length ≠ 0 := by simpa using h
            rw [List.length_zipWith]; omega
          obtain ⟨sl, hsl⟩ := List.exists_mem_of_ne_nil (List.zipWith Slot.mk s.passed s.kept)
            (by intro h0; rw [h0] at hlen; exact hlen rfl)
          exact ⟨sl, hsl, hI.keptLaunched _ (hmem sl hsl)⟩
      · intro h; cases d <;> cases h
    | cons sl rest =>
      by_cases ha : (cleanStep C s ok d).phase.active = true
      · obtain ⟨e1, ⟨evs, e2, e3, e4, e5⟩ | ⟨e2, e3, e4, e5⟩⟩ := clean_shape hp ht ha
        · refine ⟨by rw [e2]; exact hA.append e4, fun _ => ⟨pre, mid ++ evs, by rw [e2, h1]; simp,
            by simp [h2, e4], ?_⟩⟩
          constructor
          · intro _; rw [e5]; exact h3.kept (by rw [hp]; rfl)
          · rw [e1]; rintro (h | ⟨d, h⟩) <;> cases h
          · intro _ _; exact e3.append_right
          · rw [e1]; intro _ h; cases h
          · intro _ _; exact .inl e3.append_right
          · intro _ _; exact .inl e3.append_right
          · rw [e1]; intro h; cases h
        · refine ⟨by rw [e2]; exact hA, fun _ => ⟨pre, mid, by rw [e2, h1], h2, ?_⟩⟩
          constructor
          · intro _ h hh
            rw [e3] at hh
            rcases List.mem_append.1 hh with hh | hh
            · exact h3.kept (by rw [hp]; rfl) h hh
            · rw [List.mem_singleton.1 hh]
              intro hend
              refine not_ended hT hact (h := sl.h) (by simp [handles, ht]) e5 e4 ?_
              unfold JobEnded at *
              rw [h1]; simp [hend]
          · rw [e1]; rintro (h | ⟨d, h⟩) <;> cases h
          · exact h3.launch
          · rw [e1]; intro _ h; cases h
          · intro _ _; rw [e3]; simp
          · rw [e1]; rintro _ (h | ⟨d, h⟩) <;> cases h
          · rw [e1]; intro h; cases h
      · obtain ⟨evs, e1, e2⟩ := ctl_events C s ok
        rw [he] at e1 e2
        have hev : Event.resumed ∉ evs := by
          generalize (cleanStep C s ok d).phase = p at e2
          cases e2 with
          | prologue _ h => rw [hp] at h; cases h
          | tick h => rw [hp] at h; cases h
          | resumed _ h => rw [hp] at h; cases h
          | afterExecution h => rw [hp] at h; cases h
          | _ => simp
        exact ⟨by rw [e1]; exact hA.append hev, fun h => absurd h ha⟩
  | pick =>
    have hact : s.phase.active = true := by rw [hp]; rfl
    obtain ⟨pre, mid, h1, h2, h3⟩ := hB hact
    have he : ctlStep C s ok = pickStep C s := by unfold ctlStep; rw [hp]
    rw [he]
    have key : (pickStep C s).trace = s.trace ∧ ((pickStep C s).phase.active = true →
        (pickStep C s).phase = .susp false ∧ (pickStep C s).todo ≠ [] ∧
        ∃ more : List Slot, (pickStep C s).todo = s.todo ++ more ∧
          ∀ sl ∈ more, sl.h.node ∈ s.toProcess) := by
      unfold pickStep
      split
      · rename_i hl
        refine ⟨rfl, fun _ => ⟨rfl, ?_, [], by simp, by simp⟩⟩
        intro h0
        replace h0 : s.todo = [] := h0
        rw [h0] at hl
        simp at hl
      · split
        · exact ⟨rfl, fun h => by cases h⟩
        · rename_i n hn
          refine ⟨rfl, fun _ => ⟨rfl, by simp, _, rfl, ?_⟩⟩
          intro sl hsl
          rw [List.mem_singleton.1 hsl]
          show n ∈ s.toProcess
          obtain ⟨r, hr, hr1, _⟩ := findCandidate_spec (res := C.resources) (f := s.flags)
            (used := s.used) hwf hI.tp_nodes
          rw [hn] at hr
          cases hr
          obtain ⟨hE, hnn⟩ := hr1 n rfl
          have hin := hI.part hact n hnn
          unfold allNodes at hin
          simp only [List.mem_append] at hin
          rcases hin with (h5 | h5) | h5
          · obtain ⟨x, hx, rfl⟩ := List.mem_map.1 h5
            obtain ⟨k1, _⟩ := hI.notClean hact (by rw [hp]; rfl)
            have hx' := hx
            simp only [handles, k1, List.nil_append] at hx'
            obtain ⟨sl', hsl', rfl⟩ := List.mem_map.1 hx'
            have := (hI.launched _ hx (hI.pickLaunched hp sl' hsl')).1
            rw [hE.notStarted] at this; cases this
          · have := (hI.doneIff n).2 h5
            rw [hE.notDone] at this; cases this
          · exact h5
        · split
          · exact ⟨rfl, fun h => by cases h⟩
          · rename_i hne
            exact ⟨rfl, fun _ => ⟨rfl, hne, [], by simp, by simp⟩⟩
    refine ⟨by rw [key.1]; exact hA, fun ha => ⟨pre, mid, by rw [key.1, h1], h2, ?_⟩⟩
    obtain ⟨e1, e2, more, e3, e4⟩ := key.2 ha
    constructor
    · rw [e1]; intro h; cases h
    · intro _ sl hsl
      rw [e3] at hsl
      rcases List.mem_append.1 hsl with hsl | hsl
      · exact h3.todo (.inl hp) sl hsl
      · intro hend
        have := hT.lifeTp _ (e4 sl hsl)
        have h5 : JobEnded s.trace sl.h.node := by unfold JobEnded at *; rw [h1]; simp [hend]
        rw [end_mem_life, this] at h5
        cases h5
    · exact h3.launch
    · rw [e1]; intro _ h; cases h
    · rw [e1]; intro _ h; cases h
    · intro hne _
      rcases h3.pick hne (.inl hp) with h | ⟨sl, h, hl⟩
      · exact .inl h
      · exact .inr ⟨sl, by rw [e3]; exact List.mem_append_left _ h, hl⟩
    · intro _; exact e2
  | susp d =>
    have hact : s.phase.active = true := by rw [hp]; rfl
    obtain ⟨pre, mid, h1, h2, h3⟩ := hB hact
    obtain ⟨k1, _⟩ := hI.notClean hact (by rw [hp]; rfl)
    unfold ctlStep
    rw [hp]
    dsimp only
    have hok : PromptOK pre mid := by
      constructor
      · intro n hl hend
        have hl' : Event.launch n ∈ s.trace := by rw [h1]; simp [hl]
        have hlf := launch_mem_life.1 hl'
        rw [← h1]
        unfold Recorded
        rw [hT.recs]
        by_cases hin : n ∈ allNodes s
        · unfold allNodes at hin
          simp only [List.mem_append] at hin
          rcases hin with (hin | hin) | hin
          · obtain ⟨x, hx, rfl⟩ := List.mem_map.1 hin
            simp only [handles, k1, List.nil_append] at hx
            obtain ⟨sl, hsl, rfl⟩ := List.mem_map.1 hx
            exact absurd hend (h3.todo (.inr ⟨d, hp⟩) sl hsl)
          · exact List.mem_map.1 hin
          · rw [hT.lifeTp n hin] at hlf; cases hlf
        · rcases hT.lifeOther n hin with h | ⟨_, h⟩ <;> rw [h] at hlf <;> simp at hlf
      · intro hne
        by_cases hb : Busy mid
        · exact .inl hb
        · rcases h3.pick hne (.inr ⟨d, hp⟩) with h | ⟨sl, hsl, hl⟩
          · exact .inl h
          · right
            refine ⟨sl.h.node, ?_, h3.todo (.inr ⟨d, hp⟩) sl hsl⟩
            have hm : sl.h ∈ handles s := by
              simp only [handles, List.mem_append, List.mem_map]; exact .inr ⟨sl, hsl, rfl⟩
            have : Tag.launch ∈ life sl.h.node s.trace := by
              rw [hT.life_launched hact hm hl]
              cases s.worker sl.h.node <;> simp [workerLife]
            have := launch_mem_life.2 this
            rw [h1] at this
            simp only [List.mem_append, List.mem_cons, reduceCtorEq, false_or] at this
            rcases this with h | h
            · exact h
            · exact absurd (h3.launch _ h) hb
    refine ⟨?_, fun _ => ⟨s.trace, [], rfl, by simp, ?_⟩⟩
    · show Ticks PromptOK (s.trace ++ [.resumed])
      rw [h1] at hA ⊢
      exact hA.resume h2 hok
    · constructor
      · intro h; cases d <;> cases h
      · rintro (h | ⟨d', h⟩) <;> cases d <;> cases h
      · intro n h; cases h
      · intro _ h
        cases d with
        | false => exact h3.susp hp
        | true => cases h
      · intro _ h; cases d <;> cases h
      · rintro _ (h | ⟨d', h⟩) <;> cases d <;> cases h
      · intro h; cases d <;> cases h
  | drainTop =>
    have hact : s.phase.active = true := by rw [hp]; rfl
    obtain ⟨pre, mid, h1, h2, h3⟩ := hB hact
    obtain ⟨k1, _⟩ := hI.notClean hact (by rw [hp]; rfl)
    unfold ctlStep
    rw [hp]
    dsimp only
    split
    · refine ⟨hA.append (by simp), fun _ => ⟨pre, mid ++ [.afterExecution s.erec], ?_, ?_, ?_⟩⟩
      · show s.trace ++ _ = _; rw [h1]; simp
      · simpa using h2
      · constructor
        · intro h; cases h
        · rintro (h | ⟨d, h⟩) <;> cases h
        · intro n hn
          exact (h3.launch n (by simpa using hn)).append_left
        · intro _ h; cases h
        · intro _ h; cases h
        · rintro _ (h | ⟨d, h⟩) <;> cases h
        · intro h; cases h
    · rename_i hne
      refine ⟨hA, fun _ => ⟨pre, mid, h1, h2, ?_⟩⟩
      constructor
      · intro _ h hh
        replace hh : h ∈ s.kept := hh
        rw [k1] at hh; cases hh
      · rintro (h | ⟨d, h⟩) <;> cases h
      · exact h3.launch
      · intro _ h; cases h
      · intro _ _; exact .inr (.inl hne)
      · rintro _ (h | ⟨d, h⟩) <;> cases h
      · intro h; cases h
  | unwinding e =>
    unfold ctlStep; rw [hp]; dsimp only
    split
    · exact ⟨hA, fun h => by cases h⟩
    · exact ⟨hA, hB⟩
  | destroying =>
    unfold ctlStep; rw [hp]; dsimp only
    split
    · exact ⟨hA, fun h => by cases h⟩
    · exact ⟨hA, hB⟩
  | finished => unfold ctlStep; rw [hp]; exact ⟨hA, fun h => by cases h⟩
  | threw e => unfold ctlStep; rw [hp]; exact ⟨hA, fun h => by cases h⟩
  | destroyed => unfold ctlStep; rw [hp]; exact ⟨hA, hB⟩
  | ub => unfold ctlStep; rw [hp]; exact ⟨hA, hB⟩
  | abort => unfold ctlStep; rw [hp]; exact ⟨hA, hB⟩
  | outOfFuel => unfold ctlStep; rw [hp]; exact ⟨hA, hB⟩

/-- adding an event of a worker -/
theorem Cur.worker {s s' : St} {pre mid : List Event} (h : Cur s pre mid) {e : Event}
    (he : (∃ n, e = .jobBegin n false) ∨ ∃ n, e = .jobEnd n)
    (hp : s'.phase = s.phase) (ht : s'.todo = s.todo) (hk : s'.kept = s.kept) :
    Cur s' pre (mid ++ [e]) := by
  constructor
  · rw [hp, hk]; exact h.kept
  · rw [hp, ht]; exact h.todo
  · intro n hn
    refine (h.launch n ?_).append_left
    rcases List.mem_append.1 hn with hn | hn
    · exact hn
    · rw [← List.mem_singleton.1 hn] at he; simp at he
  · rw [hp, ht]; exact h.top
  · intro hne hc
    rw [ht, hk]
    exact (h.clean hne (hp ▸ hc)).imp_left Busy.append_left
  · intro hne hc
    rw [ht]
    exact (h.pick hne (hp ▸ hc)).imp_left Busy.append_left
  · rw [hp, ht]; exact h.susp

theorem prompt_step (hwf : C.dag.WF) {s : St} (hI : Inv C s) (hT : TInv C s) (h : PromptInv s)
    (m : Move) : PromptInv (step C s m) := by
  cases m with
  | ctl => exact prompt_ctl hwf hI hT h true
  | ctlFail => exact prompt_ctl hwf hI hT h false
  | fault f =>
    have hc := prompt_ctl hwf hI hT h true
    show PromptInv (faultStep C s f)
    rcases fault_cases C s f with h1 | ⟨_, _, _, _, _, _, _, h1⟩ | ⟨pre, e, post, _, h2, _, _, h1⟩ |
      ⟨_, _, h1⟩
    · rw [h1]; exact hc
    · rw [h1]; exact ⟨hc.1, fun h => by cases h⟩
    · rw [h1]
      refine ⟨hc.1.prefix ?_, fun h => by cases h⟩
      rw [h2]
      exact ⟨post, by simp⟩
    · rw [h1]; exact ⟨h.1, fun h => by cases h⟩
  | begin n =>
    simp only [step]
    split
    · exact h
    · split
      · refine ⟨h.1.append (by simp), fun hact => ?_⟩
        obtain ⟨pre, mid, h1, h2, h3⟩ := h.2 hact
        refine ⟨pre, mid ++ [.jobBegin n false], ?_, by simpa using h2,
          h3.worker (.inl ⟨n, rfl⟩) rfl rfl rfl⟩
        show s.trace ++ _ = _
        rw [h1]; simp
      · exact h
  | finish n =>
    simp only [step]
    split
    · exact h
    · split
      · refine ⟨h.1.append (by simp), fun hact => ?_⟩
        obtain ⟨pre, mid, h1, h2, h3⟩ := h.2 hact
        refine ⟨pre, mid ++ [.jobEnd n], ?_, by simpa using h2,
          h3.worker (.inr ⟨n, rfl⟩) rfl rfl rfl⟩
        show s.trace ++ _ = _
        rw [h1]; simp
      · exact h
  | destroy =>
    simp only [step, destroyStep]
    split <;> first | exact h | exact ⟨h.1, fun h => by cases h⟩

/-- **C79**.  In every complete tick (from one resumption to the next) each job on a thread that had
ended before the tick is recorded; and every tick but the first starts or records some task unless a
job on a thread had not ended before the tick. -/
theorem C79_prompt (C : Cfg) (hwf : C.dag.WF) (ms : List Move) (pre mid post : List Event)
    (htr : (exec C ms).trace = pre ++ .resumed :: (mid ++ .resumed :: post))
    (hm : .resumed ∉ mid) : PromptOK pre mid :=
  (foldl_inv (P := fun s => Inv C s ∧ TInv C s ∧ PromptInv s)
    (fun _ m h => ⟨inv_step hwf h.1 m, h.2.1.step hwf h.1 m, prompt_step hwf h.1 h.2.1 h.2.2 m⟩)
    ms St.init ⟨inv_init C, tinv_init C, by
      refine ⟨fun pre mid post h => ?_, fun h => by cases h⟩
      cases pre <;> cases h⟩).2.2.1 pre mid post htr hm

/-! ## How many ticks -/

/-- the number of ticks at whose start some job on a thread had not ended -/
noncomputable def waitingTicks (tr : List Event) : Nat :=
  open Classical in
  (List.range tr.length).countP fun i => tr[i]? = some Event.resumed ∧ ¬ AllEnded (tr.take i)

theorem waitingTicks_append (a b : List Event) : waitingTicks a ≤ waitingTicks (a ++ b) := by
  classical
  unfold waitingTicks
  rw [List.length_append, List.range_add, List.countP_append]
  refine Nat.le_trans (Nat.le_of_eq ?_) (Nat.le_add_right _ _)
  refine List.countP_congr fun i hi => ?_
  have hi := List.mem_range.1 hi
  simp only [decide_eq_true_eq]
  rw [List.getElem?_append_left hi, List.take_append_of_le_length (Nat.le_of_lt hi)]

theorem waitingTicks_resumed {a : List Event} (h : ¬ AllEnded a) (b : List Event) :
    waitingTicks a + 1 ≤ waitingTicks (a ++ .resumed :: b) := by
  classical
  have h2 : waitingTicks (a ++ [.resumed]) = waitingTicks a + 1 := by
    unfold waitingTicks
    rw [List.length_append, List.length_singleton, List.range_succ, List.countP_append]
    congr 1
    · refine List.countP_congr fun i hi => ?_
      have hi := List.mem_range.1 hi
      simp only [decide_eq_true_eq]
      rw [List.getElem?_append_left hi, List.take_append_of_le_length (Nat.le_of_lt hi)]
    · simp [h]
  rw [← h2]
  have := waitingTicks_append (a ++ [.resumed]) b
  rwa [List.append_assoc] at this

/-- number of reports -/
def reports (tr : List Event) : Nat := tr.countP Event.isReport

/-- splitting at the last resumption -/
theorem split_last {l : List Event} (h : Event.resumed ∈ l) :
    ∃ pre mid, l = pre ++ Event.resumed :: mid ∧ Event.resumed ∉ mid := by
  induction l with
  | nil => cases h
  | cons e l ih =>
    by_cases hl : Event.resumed ∈ l
    · obtain ⟨pre, mid, rfl, hm⟩ := ih hl
      exact ⟨e :: pre, mid, rfl, hm⟩
    · rcases List.mem_cons.1 h with rfl | h
      · exact ⟨[], l, rfl, hl⟩
      · exact absurd h hl

theorem ticks_bound (k : Nat) : ∀ (pre mid : List Event), pre.length ≤ k →
    Ticks PromptOK (pre ++ .resumed :: mid) → Event.resumed ∉ mid →
    (pre = [] ∨ pre.head? = some .resumed) →
    ticks (pre ++ .resumed :: mid) ≤ reports pre + waitingTicks pre + 2 := by
  induction k with
  | zero =>
    intro pre mid hl _ hm _
    have : pre = [] := List.length_eq_zero_iff.1 (by omega)
    subst this
    have : mid.countP (fun e => decide (e = Event.resumed)) = 0 :=
      List.countP_eq_zero.2 fun e he h => hm (by rw [decide_eq_true_eq] at h; exact h ▸ he)
    simp only [ticks, List.nil_append, List.countP_cons, this]
    simp
  | succ k ih =>
    intro pre mid hl hT hm hh
    have h0 : mid.countP (fun e => decide (e = Event.resumed)) = 0 :=
      List.countP_eq_zero.2 fun e he h => hm (by rw [decide_eq_true_eq] at h; exact h ▸ he)
    have h1 : ticks (pre ++ .resumed :: mid) = ticks pre + 1 := by
      simp only [ticks, List.countP_append, List.countP_cons, h0]; simp
    rcases hh with rfl | hh
    · rw [h1]; simp [ticks]
    · have hr : Event.resumed ∈ pre := List.mem_of_head? hh
      obtain ⟨pre', mid', rfl, hm'⟩ := split_last hr
      have hT' : Ticks PromptOK (pre' ++ .resumed :: mid') := hT.prefix ⟨_, rfl⟩
      have hh' : pre' = [] ∨ pre'.head? = some .resumed := by
        cases pre' with
        | nil => exact .inl rfl
        | cons a l => right; simpa using hh
      have := ih pre' mid' (by simp at hl; omega) hT' hm' hh'
      rw [h1]
      have hok := hT pre' mid' mid (by simp) hm'
      have hw := waitingTicks_append pre' (.resumed :: mid')
      have hrep : reports (pre' ++ .resumed :: mid') = reports pre' + reports mid' := by
        simp only [reports, List.countP_append, List.countP_cons]; simp [Event.isReport]
      by_cases hne : pre' = []
      · subst hne
        have h3 : ticks ([] ++ Event.resumed :: mid') = 1 := by
          have h4 : mid'.countP (fun e => decide (e = Event.resumed)) = 0 :=
            List.countP_eq_zero.2 fun e he h => hm' (by rw [decide_eq_true_eq] at h; exact h ▸ he)
          simp only [ticks, List.nil_append, List.countP_cons, h4]; simp
        omega
      · rcases hok.2 hne with ⟨e, he, hb⟩ | ⟨n, hn, hnn⟩
        · have : 0 < reports mid' := List.countP_pos_iff.2 ⟨e, he, hb⟩
          omega
        · have := waitingTicks_resumed (a := pre') (fun h => hnn (h n hn)) mid'
          omega

/-- number of calls of `before_run` -/
def starts (tr : List Event) : Nat := tr.countP fun e => match e with
  | .beforeRun _ _ => true
  | _ => false

theorem starts_bound (hwf : C.dag.WF) (ms : List Move) :
    starts (exec C ms).trace ≤ C.dag.nodes.length := by
  obtain ⟨hI, hT⟩ := both_exec hwf ms
  generalize exec C ms = s at *
  let bs : List Node := s.trace.filterMap fun e => match e with
    | .beforeRun _ n => some n
    | _ => none
  have hsplit : ∀ tr : List Event, starts tr = (tr.filterMap fun e => match e with
      | .beforeRun _ n => some n
      | _ => none).length := by
    intro tr
    induction tr with
    | nil => rfl
    | cons e tr ih =>
      cases e <;> simp [starts, List.countP_cons] at ih ⊢ <;> omega
  have hcount : ∀ n, bs.count n ≤ 1 := by
    intro n
    have h1 : ∀ tr : List Event, (tr.filterMap fun e => match e with
        | .beforeRun _ n => some n
        | _ => none).count n = (life n tr).count .before := by
      intro tr
      induction tr with
      | nil => rfl
      | cons e tr ih =>
        have h2 : life n (e :: tr) = life n [e] ++ life n tr := life_append (tr := [e])
        rw [h2, List.count_append, ← ih, List.filterMap_cons]
        cases e with
        | beforeRun er m =>
          by_cases hm : m = n
          · simp [life, tagOf, hm]; omega
          · simp [life, tagOf, hm]
        | launch m | jobBegin m _ | jobEnd m | runLog m _ =>
          by_cases hm : m = n <;> simp [life, tagOf, hm]
        | afterRun er r m =>
          by_cases hm : r.node = n <;> simp [life, tagOf, hm]
        | _ => simp [life, tagOf, List.filterMap_cons]
    show List.count n (List.filterMap _ _) ≤ 1
    rw [h1]
    rcases life_shape hI hT n with h | ⟨_, h⟩ | ⟨_, h⟩
    all_goals exact Nat.le_trans (h.sublist.count_le _) (by decide)
  have hb : bs.length ≤ C.dag.nodes.length := by
    refine (List.subperm_of_subset (List.nodup_iff_count_le_one.2 hcount) ?_).length_le
    intro n hn
    obtain ⟨e, he, hm⟩ := List.mem_filterMap.1 hn
    have hlf : Tag.before ∈ life n s.trace := by
      split at hm
      · cases hm; exact List.mem_filterMap.2 ⟨_, he, by simp [tagOf]⟩
      · cases hm
    by_cases hin : n ∈ allNodes s
    · exact hI.inNodes n hin
    · rcases hT.lifeOther n hin with h | ⟨h, _⟩
      · rw [h] at hlf; cases hlf
      · exact h
  rw [hsplit]; exact hb

theorem reports_bound (hwf : C.dag.WF) (ms : List Move) :
    reports (exec C ms).trace ≤ 2 * C.dag.nodes.length := by
  have hb := starts_bound (C := C) hwf ms
  obtain ⟨hI, hT⟩ := both_exec hwf ms
  generalize exec C ms = s at *
  have hsplit : ∀ tr : List Event, reports tr = starts tr + (recsOf tr).length := by
    intro tr
    induction tr with
    | nil => rfl
    | cons e tr ih =>
      cases e <;> simp [reports, starts, recsOf, Event.isReport, List.countP_cons] at ih ⊢ <;> omega
  have hr : (recsOf s.trace).length ≤ C.dag.nodes.length := by
    rw [hT.recs]
    have h1 : (recNodes s).Nodup := hI.nodup.sublist (by
      unfold allNodes
      exact (List.sublist_append_right _ _).trans (List.sublist_append_left _ _))
    have := (List.subperm_of_subset h1 (l₂ := C.dag.nodes) fun n hn =>
      hI.inNodes n (by unfold allNodes; simp [hn])).length_le
    simpa [recNodes] using this
  rw [hsplit]
  omega

/-- **C79**, the number of ticks: at most two per task and two more, apart from those at whose
start some job on a thread had not ended. -/
theorem C79_ticks (C : Cfg) (hwf : C.dag.WF) (ms : List Move) :
    ticks (exec C ms).trace ≤ 2 * C.dag.nodes.length + 2 + waitingTicks (exec C ms).trace := by
  have hrep := reports_bound (C := C) hwf ms
  by_cases hne : Event.resumed ∈ (exec C ms).trace
  · have hhead : (exec C ms).trace.head? = some .resumed := by
      obtain ⟨mid, h1, _⟩ := prologue_tail (C := C) hwf
      rcases (tinv_exec hwf ms).pro with ⟨_, h⟩ | ⟨rest, h, _⟩ | ⟨_, _, ⟨more, h⟩⟩
      · rw [h] at hne; cases hne
      · rw [h, h1]; rfl
      · rw [h1] at h
        cases ht : (exec C ms).trace with
        | nil => rw [ht] at hne; cases hne
        | cons e l => rw [ht] at h; rw [(List.cons.inj h).1]; rfl
    obtain ⟨pre, mid, h1, h2⟩ := split_last hne
    rw [h1] at hrep hhead ⊢
    have hT : Ticks PromptOK (pre ++ .resumed :: mid) := by
      rw [← h1]
      exact fun pre mid post => C79_prompt C hwf ms pre mid post
    have := ticks_bound pre.length pre mid (Nat.le_refl _) hT h2 (by
      cases pre with
      | nil => exact .inl rfl
      | cons a l => right; simpa using hhead)
    have hw := waitingTicks_append pre (.resumed :: mid)
    have : reports pre ≤ reports (pre ++ .resumed :: mid) := by
      unfold reports; rw [List.countP_append]; omega
    omega
  · have : ticks (exec C ms).trace = 0 :=
      List.countP_eq_zero.2 fun e he h => hne (by rw [decide_eq_true_eq] at h; exact h ▸ he)
    omega

/-- job 1 is executing at the start of the fourth tick, in which nothing is reported; it has ended
before the sixth, which records it -/
example :
    let tr := (exec (Ex.par 3) (List.replicate 23 .ctl ++ [.begin 1] ++ List.replicate 6 .ctl ++
      [.finish 1] ++ List.replicate 12 .ctl)).trace
    (tr = tr.take 16 ++ .resumed :: ((tr.drop 17).take 2 ++ .resumed :: tr.drop 20) ∧
      Event.launch 1 ∈ tr.take 16 ∧ .jobEnd 1 ∉ tr.take 16 ∧
      ∀ e ∈ (tr.drop 17).take 2, e.isReport = false) ∧
    (tr = tr.take 22 ++ .resumed :: ((tr.drop 23).take 3 ++ .resumed :: tr.drop 27) ∧
      Event.launch 1 ∈ tr.take 22 ∧ .jobEnd 1 ∈ tr.take 22 ∧
      ∃ e ∈ (tr.drop 23).take 3, e.isReport = true) := by
  decide +kernel

end Joque
