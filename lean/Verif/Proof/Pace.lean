import Verif.Props.Prompt
import Verif.Props.Cost

/-! # The number of ticks -/

namespace Joque

variable {C : Cfg}

/-- `k` tasks are not started yet, `t` ticks were begun -/
def TickLB (C : Cfg) (s : St) : Prop :=
  match s.phase with
  | .loopTop => C.dag.nodes.length + 1 ≤ ticks s.trace + s.toProcess.length ∧
      (s.todo = [] → s.toProcess.length = C.dag.nodes.length)
  | .clean false | .pick => C.dag.nodes.length + 1 ≤ ticks s.trace + s.toProcess.length
  | .susp false => C.dag.nodes.length ≤ ticks s.trace + s.toProcess.length ∧ s.todo ≠ []
  | .drainTop => C.dag.nodes.length + 1 ≤ ticks s.trace ∧
      (s.todo = [] → C.dag.nodes.length = 0 ∨ C.dag.nodes.length + 2 ≤ ticks s.trace)
  | .clean true | .susp true => C.dag.nodes.length + 1 ≤ ticks s.trace
  | .finished => C.dag.nodes.length = 0 ∨ C.dag.nodes.length + 2 ≤ ticks s.trace
  | _ => True

/-- the same if no thread has been made -/
def TickEQ (C : Cfg) (s : St) : Prop :=
  match s.phase with
  | .loopTop | .clean false | .pick => C.dag.nodes.length + 1 = ticks s.trace + s.toProcess.length
  | .susp false => C.dag.nodes.length = ticks s.trace + s.toProcess.length
  | .drainTop => (s.todo ≠ [] → C.dag.nodes.length + 1 = ticks s.trace) ∧
      (s.todo = [] → ticks s.trace ≤ C.dag.nodes.length + 2 ∧
        (C.dag.nodes.length = 0 → ticks s.trace = 1))
  | .clean true => C.dag.nodes.length + 1 = ticks s.trace ∧ C.dag.nodes.length ≠ 0
  | .susp true => C.dag.nodes.length + 1 = ticks s.trace ∧ s.todo = [] ∧ C.dag.nodes.length ≠ 0
  | .finished => ticks s.trace ≤ C.dag.nodes.length + 2 ∧
        (C.dag.nodes.length = 0 → ticks s.trace = 1)
  | _ => True

/-- no thread has been made -/
def NoThread (tr : List Event) : Prop := ∀ n, Event.launch n ∉ tr

theorem ticks_append (a b : List Event) : ticks (a ++ b) = ticks a + ticks b := List.countP_append ..

theorem ticks_zero {b : List Event} (h : Event.resumed ∉ b) : ticks b = 0 :=
  List.countP_eq_zero.2 fun e he hh => h (by rw [decide_eq_true_eq] at hh; exact hh ▸ he)

theorem NoThread.of_append {a b : List Event} (h : NoThread (a ++ b)) : NoThread a :=
  fun n hn => h n (List.mem_append_left _ hn)

theorem clean_toProcess (s : St) (ok d : Bool) : (cleanStep C s ok d).toProcess = s.toProcess := by
  have hcoll : ∀ (s : St) ref h rest, (collect C s ref h rest).toProcess = s.toProcess := by
    intro s ref h rest
    unfold collect; simp only; split
    · rfl
    · simp only [complete]; split <;> rfl
  unfold cleanStep
  split
  · rfl
  · split
    · unfold startRun; simp only
      split
      · rfl
      · split
        · rfl
        · split
          · rfl
          · split
            · rw [hcoll]; rfl
            · split <;> rfl
    · split
      · exact hcoll ..
      · rfl

theorem clean_ticks {s : St} {d : Bool} (ok : Bool) (hp : s.phase = .clean d) :
    ticks (cleanStep C s ok d).trace = ticks s.trace := by
  have he : ctlStep C s ok = cleanStep C s ok d := by unfold ctlStep; rw [hp]
  obtain ⟨evs, e1, e2⟩ := ctl_events C s ok
  rw [he] at e1 e2
  have hev : Event.resumed ∉ evs := by
    generalize (cleanStep C s ok d).phase = p at e2
    cases e2 with
    | prologue _ h => rw [hp] at h; cases h
    | tick h => rw [hp] at h; cases h
    | resumed _ h => rw [hp] at h; cases h
    | afterExecution h => rw [hp] at h; cases h
    | _ => simp
  rw [e1, ticks_append, ticks_zero hev, Nat.add_zero]

theorem clean_phase {s : St} {ok d : Bool} (hp : s.phase = .clean d) :
    (cleanStep C s ok d).phase = .clean d ∨ (cleanStep C s ok d).phase.active = false ∨
    (s.todo = [] ∧ (cleanStep C s ok d).phase = if d then .susp true else .pick) := by
  cases ht : s.todo with
  | nil => right; right; unfold cleanStep; rw [ht]; exact ⟨rfl, rfl⟩
  | cons sl rest =>
    by_cases ha : (cleanStep C s ok d).phase.active = true
    · exact .inl (clean_shape hp ht ha).1
    · right; left; simpa using ha

theorem pick_shape (hwf : C.dag.WF) {s : St} (hI : Inv C s) (hp : s.phase = .pick)
    (ha : (pickStep C s).phase.active = true) :
    (pickStep C s).phase = .susp false ∧ (pickStep C s).trace = s.trace ∧ (pickStep C s).todo ≠ [] ∧
    s.toProcess.length ≤ (pickStep C s).toProcess.length + 1 ∧
    (s.todo = [] → s.toProcess.length = (pickStep C s).toProcess.length + 1) := by
  unfold pickStep at ha ⊢
  split at ha
  · rename_i hl
    rw [if_pos hl]
    have hne : s.todo ≠ [] := by
      intro h0
      rw [h0] at hl
      simp at hl
    exact ⟨rfl, rfl, hne, Nat.le_succ _, fun h => absurd h hne⟩
  · rename_i hl
    rw [if_neg hl]
    split at ha
    · cases ha
    · rename_i n hn
      have hmem : n ∈ s.toProcess := by
        obtain ⟨r, hr, hr1, _⟩ := findCandidate_spec (res := C.resources) (f := s.flags)
          (used := s.used) hwf hI.tp_nodes
        rw [hn] at hr
        cases hr
        obtain ⟨hE, hnn⟩ := hr1 n rfl
        exact (waiting_iff hI hp hnn).1 (by simp [Flags.waiting, hE.notStarted, hE.notDone])
      have hlen := serase_length hmem (hI.tpSorted.imp Nat.ne_of_lt)
      exact ⟨rfl, rfl, by simp, Nat.le_of_eq hlen.symm, fun _ => hlen.symm⟩
    · rename_i hn
      split at ha
      · cases ha
      · rename_i hne
        rw [if_neg hne]
        exact ⟨rfl, rfl, hne, Nat.le_succ _, fun h => absurd h hne⟩

theorem launched_event {s : St} (hT : TInv C s) (ha : s.phase.active = true) {h : Handle}
    (hm : h ∈ handles s) (hl : h.launched = true) : Event.launch h.node ∈ s.trace := by
  refine launch_mem_life.2 ?_
  rw [hT.life_launched ha hm hl]
  cases s.worker h.node <;> simp [workerLife]

theorem toProcess_length (hI : Inv C s) : s.toProcess.length ≤ C.dag.nodes.length :=
  (List.subperm_of_subset (hI.tpSorted.imp Nat.ne_of_lt) hI.tp_nodes).length_le

theorem prologue_length (hwf : C.dag.WF) : (prologue C St.init).toProcess.length = C.dag.nodes.length := by
  have : (prologue C St.init).toProcess = toProcessOf C.dag := by
    unfold prologue
    dsimp only
    split
    · rfl
    · rfl
    · rfl
    · split <;> rfl
  rw [this, (toProcessOf_perm hwf).length_eq]

/-- a state that does not need anything -/
theorem TickLB.inactive {s : St} (h : s.phase.active = false) : TickLB C s := by
  unfold TickLB
  split <;> rename_i hp <;> first | trivial | (rw [hp] at h; cases h)

theorem TickEQ.inactive {s : St} (h : s.phase.active = false) : TickEQ C s := by
  unfold TickEQ
  split <;> rename_i hp <;> first | trivial | (rw [hp] at h; cases h)

theorem ticks_ctl (hwf : C.dag.WF) {s : St} (hI : Inv C s) (hT : TInv C s) (h : TickLB C s)
    (h' : NoThread s.trace → TickEQ C s) (ok : Bool) :
    TickLB C (ctlStep C s ok) ∧ (NoThread (ctlStep C s ok).trace → TickEQ C (ctlStep C s ok)) := by
  have hsub : NoThread (ctlStep C s ok).trace → NoThread s.trace := by
    obtain ⟨evs, e1, -⟩ := ctl_events C s ok
    rw [e1]; exact NoThread.of_append
  cases hp : s.phase with
  | created =>
    have hs := hI.createdInit hp
    have he : ctlStep C s ok = prologue C St.init := by
      unfold ctlStep; rw [hp]; simp only; rw [hs]
    obtain ⟨t1, t2, _⟩ := prologue_todo (C := C)
    have h1 := prologue_length hwf
    have h2 := ticks_prologue hwf
    rw [he]
    rcases prologue_spec hwf with ⟨_, c, _, hp, _⟩ | ⟨_, _, hp, _⟩ |
        ⟨_, pre, n, post, _, _, _, _, ⟨_, hp⟩ | ⟨_, w, _, hp⟩⟩ <;> unfold TickLB TickEQ <;> rw [hp] <;>
      dsimp only
    · exact ⟨trivial, fun _ => trivial⟩
    · exact ⟨⟨by omega, fun _ => h1⟩, fun _ => by omega⟩
    · exact ⟨trivial, fun _ => trivial⟩
    · exact ⟨trivial, fun _ => trivial⟩
  | loopTop =>
    unfold TickLB at h
    unfold TickEQ at h'
    rw [hp] at h h'
    unfold ctlStep at hsub ⊢
    rw [hp] at hsub ⊢
    dsimp only at h h' hsub ⊢
    split
    · rename_i htp
      unfold TickLB TickEQ
      dsimp only
      have hl : s.toProcess.length = 0 := by rw [htp]; rfl
      rw [hl] at h h'
      refine ⟨⟨h.1, fun h0 => ?_⟩, fun hn => ⟨fun _ => h' hn, fun _ => ?_⟩⟩
      · have := h.2 h0; omega
      · have := h' hn; omega
    · rename_i htp
      rw [if_neg htp] at hsub
      unfold TickLB TickEQ
      have : ticks (s.trace ++ [Event.onTick s.erec]) = ticks s.trace := by
        rw [ticks_append, ticks_zero (b := [_]) (by simp)]; rfl
      simp only [St.emit]
      rw [this]
      exact ⟨h.1, fun hn => h' (hsub hn)⟩
  | clean d =>
    have hact : s.phase.active = true := by rw [hp]; rfl
    have he : ctlStep C s ok = cleanStep C s ok d := by unfold ctlStep; rw [hp]
    rw [he] at hsub ⊢
    unfold TickLB at h
    unfold TickEQ at h'
    rw [hp] at h h'
    have e1 := clean_ticks (C := C) ok hp
    have e2 := clean_toProcess (C := C) s ok d
    rcases clean_phase (C := C) (ok := ok) hp with e3 | e3 | ⟨e3, e4⟩
    · unfold TickLB TickEQ
      rw [e3]
      cases d <;> dsimp only at h h' ⊢
      · rw [e1, e2]; exact ⟨h, fun hn => h' (hsub hn)⟩
      · rw [e1]; exact ⟨h, fun hn => h' (hsub hn)⟩
    · exact ⟨.inactive e3, fun _ => .inactive e3⟩
    · unfold TickLB TickEQ
      rw [e4]
      cases d <;> dsimp only at h h' ⊢
      · show (_ ≤ _) ∧ (_ → _ = _)
        rw [e1, e2]; exact ⟨h, fun hn => h' (hsub hn)⟩
      · show (_ ≤ _) ∧ (_ → _ = _ ∧ _ ∧ _)
        rw [e1]
        refine ⟨h, fun hn => ⟨(h' (hsub hn)).1, ?_, (h' (hsub hn)).2⟩⟩
        have hk : s.kept = [] := by
          rw [List.eq_nil_iff_forall_not_mem]
          intro x hx
          have hm : x ∈ handles s := by simp [handles, hx]
          exact hsub hn _ (launched_event hT hact hm (hI.keptLaunched x hx))
        unfold cleanStep
        rw [e3]
        simp [hk]
  | pick =>
    have he : ctlStep C s ok = pickStep C s := by unfold ctlStep; rw [hp]
    have hact : s.phase.active = true := by rw [hp]; rfl
    rw [he] at hsub ⊢
    unfold TickLB at h
    unfold TickEQ at h'
    rw [hp] at h h'
    dsimp only at h h'
    by_cases ha : (pickStep C s).phase.active = true
    · obtain ⟨p1, p2, p3, p4, p5⟩ := pick_shape hwf hI hp ha
      unfold TickLB TickEQ
      rw [p1]
      dsimp only
      rw [p2]
      refine ⟨⟨by omega, p3⟩, fun hn => ?_⟩
      have ht : s.todo = [] := by
        rw [List.eq_nil_iff_forall_not_mem]
        intro sl hsl
        have hm : sl.h ∈ handles s := by
          simp only [handles, List.mem_append, List.mem_map]; exact .inr ⟨sl, hsl, rfl⟩
        exact hn _ (launched_event hT hact hm (hI.pickLaunched hp sl hsl))
      have := h' hn
      have := p5 ht
      omega
    · have ha' : (pickStep C s).phase.active = false := by simpa using ha
      exact ⟨.inactive ha', fun _ => .inactive ha'⟩
  | susp d =>
    unfold TickLB at h
    unfold TickEQ at h'
    rw [hp] at h h'
    unfold ctlStep at hsub ⊢
    rw [hp] at hsub ⊢
    have e1 : ticks (s.trace ++ [Event.resumed]) = ticks s.trace + 1 := by
      rw [ticks_append]; rfl
    unfold TickLB TickEQ
    cases d <;> simp only [St.emit] at h h' hsub ⊢ <;> simp only [if_true, if_false, Bool.false_eq_true] <;>
      rw [e1]
    · refine ⟨⟨by omega, fun h0 => absurd h0 h.2⟩, fun hn => ?_⟩
      have := h' (hsub hn)
      omega
    · refine ⟨⟨by omega, fun _ => .inr (by omega)⟩, fun hn => ?_⟩
      have := h' (hsub hn)
      exact ⟨fun h0 => absurd this.2.1 h0, fun _ => ⟨by omega, fun h0 => absurd h0 this.2.2⟩⟩
  | drainTop =>
    unfold TickLB at h
    unfold TickEQ at h'
    rw [hp] at h h'
    unfold ctlStep at hsub ⊢
    rw [hp] at hsub ⊢
    dsimp only at h h' hsub ⊢
    split
    · rename_i ht
      rw [if_pos ht] at hsub
      have : ticks (s.trace ++ [Event.afterExecution s.erec]) = ticks s.trace := by
        rw [ticks_append, ticks_zero (b := [_]) (by simp)]; rfl
      unfold TickLB TickEQ
      simp only [St.emit] at hsub ⊢
      rw [this]
      exact ⟨h.2 ht, fun hn => (h' (hsub hn)).2 ht⟩
    · rename_i ht
      rw [if_neg ht] at hsub
      unfold TickLB TickEQ
      dsimp only
      refine ⟨h.1, fun hn => ⟨(h' hn).1 ht, fun h0 => ?_⟩⟩
      obtain ⟨sl, hsl⟩ := List.exists_mem_of_ne_nil _ ht
      have : sl.h.node ∈ C.dag.nodes := hI.inNodes _ (by
        unfold allNodes handles
        simp only [List.mem_append, List.mem_map, List.map_append, List.map_map]
        exact .inl (.inl (.inr ⟨sl, hsl, rfl⟩)))
      rw [List.length_eq_zero_iff.1 h0] at this
      cases this
  | unwinding e =>
    unfold ctlStep; rw [hp]; dsimp only
    split
    · exact ⟨.inactive rfl, fun _ => .inactive rfl⟩
    · exact ⟨h, h'⟩
  | destroying =>
    unfold ctlStep; rw [hp]; dsimp only
    split
    · exact ⟨.inactive rfl, fun _ => .inactive rfl⟩
    · exact ⟨h, h'⟩
  | finished => unfold ctlStep; rw [hp]; exact ⟨.inactive rfl, fun _ => .inactive rfl⟩
  | threw e => unfold ctlStep; rw [hp]; exact ⟨.inactive rfl, fun _ => .inactive rfl⟩
  | destroyed => unfold ctlStep; rw [hp]; exact ⟨h, h'⟩
  | ub => unfold ctlStep; rw [hp]; exact ⟨h, h'⟩
  | abort => unfold ctlStep; rw [hp]; exact ⟨h, h'⟩
  | outOfFuel => unfold ctlStep; rw [hp]; exact ⟨h, h'⟩

theorem TickLB.congr {s s' : St} (h : TickLB C s) (h1 : s'.phase = s.phase)
    (h2 : ticks s'.trace = ticks s.trace) (h3 : s'.toProcess = s.toProcess) (h4 : s'.todo = s.todo) :
    TickLB C s' := by
  unfold TickLB at h ⊢
  rw [h1, h2, h3, h4]; exact h

theorem TickEQ.congr {s s' : St} (h : TickEQ C s) (h1 : s'.phase = s.phase)
    (h2 : ticks s'.trace = ticks s.trace) (h3 : s'.toProcess = s.toProcess) (h4 : s'.todo = s.todo) :
    TickEQ C s' := by
  unfold TickEQ at h ⊢
  rw [h1, h2, h3, h4]; exact h

theorem ticks_step (hwf : C.dag.WF) {s : St} (hI : Inv C s) (hT : TInv C s)
    (h : TickLB C s ∧ (NoThread s.trace → TickEQ C s)) (m : Move) :
    TickLB C (step C s m) ∧ (NoThread (step C s m).trace → TickEQ C (step C s m)) := by
  cases m with
  | ctl => exact ticks_ctl hwf hI hT h.1 h.2 true
  | ctlFail => exact ticks_ctl hwf hI hT h.1 h.2 false
  | fault f =>
    have hc := ticks_ctl hwf hI hT h.1 h.2 true
    show TickLB C (faultStep C s f) ∧ (NoThread (faultStep C s f).trace → TickEQ C (faultStep C s f))
    rcases fault_cases C s f with h1 | ⟨_, _, _, _, _, _, _, h1⟩ | ⟨pre, e, post, _, h2, _, _, h1⟩ |
      ⟨_, _, h1⟩
    · rw [h1]; exact hc
    · rw [h1]; exact ⟨.inactive rfl, fun _ => .inactive rfl⟩
    · rw [h1]; exact ⟨.inactive rfl, fun _ => .inactive rfl⟩
    · rw [h1]; exact ⟨.inactive rfl, fun _ => .inactive rfl⟩
  | begin n =>
    simp only [step]
    split
    · exact h
    · split
      · have e : ticks (s.trace ++ [Event.jobBegin n false]) = ticks s.trace := by
          rw [ticks_append, ticks_zero (b := [_]) (by simp)]; rfl
        exact ⟨h.1.congr rfl e rfl rfl, fun hn => (h.2 (NoThread.of_append hn)).congr rfl e rfl rfl⟩
      · exact h
  | finish n =>
    simp only [step]
    split
    · exact h
    · split
      · have e : ticks (s.trace ++ [Event.jobEnd n]) = ticks s.trace := by
          rw [ticks_append, ticks_zero (b := [_]) (by simp)]; rfl
        exact ⟨h.1.congr rfl e rfl rfl, fun hn => (h.2 (NoThread.of_append hn)).congr rfl e rfl rfl⟩
      · exact h
  | destroy =>
    simp only [step, destroyStep]
    split <;> first | exact h | exact ⟨.inactive rfl, fun _ => .inactive rfl⟩

theorem ticks_exec (hwf : C.dag.WF) (ms : List Move) :
    TickLB C (exec C ms) ∧ (NoThread (exec C ms).trace → TickEQ C (exec C ms)) :=
  (foldl_inv (P := fun s => Inv C s ∧ TInv C s ∧ TickLB C s ∧ (NoThread s.trace → TickEQ C s))
    (fun _ m h => ⟨inv_step hwf h.1 m, h.2.1.step hwf h.1 m, ticks_step hwf h.1 h.2.1 h.2.2 m⟩)
    ms St.init ⟨inv_init C, tinv_init C, trivial, fun _ => trivial⟩).2.2

/-- every start comes after two resumptions -/
def TwoFirst (tr : List Event) : Prop :=
  ∀ pre er n post, tr = pre ++ Event.beforeRun er n :: post → 2 ≤ ticks pre

theorem TwoFirst.prefix {a b : List Event} (h : TwoFirst b) (hp : a <+: b) : TwoFirst a := by
  obtain ⟨c, rfl⟩ := hp
  intro pre er n post he
  exact h pre er n (post ++ c) (by rw [he]; simp)

theorem TwoFirst.append {a b : List Event} (h : TwoFirst a)
    (hb : ∀ x er n y, b = x ++ Event.beforeRun er n :: y → 2 ≤ ticks a) : TwoFirst (a ++ b) := by
  intro pre er n post he
  rcases List.append_eq_append_iff.1 he with ⟨c, h1, h2⟩ | ⟨c, h1, h2⟩
  · have := hb c er n post h2
    rw [h1, ticks_append]; omega
  · cases c with
    | nil =>
      rw [List.nil_append] at h2
      have := hb [] er n post h2.symm
      rw [h1, List.append_nil] at this; exact this
    | cons e c =>
      injection h2 with h2 h3
      subst h2
      exact h pre er n c h1

theorem two_ctl (hwf : C.dag.WF) {s : St} (hI : Inv C s) (h : TickLB C s) (h2 : TwoFirst s.trace) (ok : Bool) :
    TwoFirst (ctlStep C s ok).trace := by
  have key : ∀ d, s.phase = .clean d → (∃ sl rest, s.todo = sl :: rest) → 2 ≤ ticks s.trace := by
    rintro d hp ⟨sl, rest, ht⟩
    have hsl : sl ∈ s.todo := by rw [ht]; simp
    have hin : sl.h.node ∈ (handles s).map Handle.node :=
      List.mem_map.2 ⟨_, by simp only [handles, List.mem_append, List.mem_map]; exact .inr ⟨sl, hsl, rfl⟩, rfl⟩
    have hlt : s.toProcess.length < C.dag.nodes.length := by
      have := (List.subperm_of_subset hI.nodup hI.inNodes).length_le
      unfold allNodes at this
      have := List.length_pos_of_mem hin
      simp only [List.length_append] at *
      omega
    unfold TickLB at h
    rw [hp] at h
    cases d <;> dsimp only at h <;> omega
  obtain ⟨evs, e1, e2⟩ := ctl_events C s ok
  rw [e1]
  refine h2.append fun x er n y hx => ?_
  have hmem : Event.beforeRun er n ∈ evs := by rw [hx]; simp
  generalize (ctlStep C s ok).phase = p at e2
  cases e2 with
  | prologue _ hp he =>
    exfalso
    have hs := hI.createdInit hp
    subst hs
    obtain ⟨mid, h1, h2, -⟩ := prologue_tail hwf
    rw [he] at h1
    replace h1 : evs = _ := h1
    rw [h1] at hmem
    rcases List.mem_cons.1 hmem with h | h
    · cases h
    · have := h2 _ h; simp [proEv] at this
  | none => cases hmem
  | tick => simp at hmem
  | resumed => simp at hmem
  | afterExecution => simp at hmem
  | collect => simp at hmem
  | _ => exact key _ (by assumption) ⟨_, _, by assumption⟩

theorem two_exec (hwf : C.dag.WF) (ms : List Move) : TwoFirst (exec C ms).trace := by
  refine (foldl_inv (P := fun s => (Inv C s ∧ TInv C s) ∧ (TickLB C s ∧ (NoThread s.trace → TickEQ C s)) ∧
    TwoFirst s.trace) (fun s m h => ?_) ms St.init
      ⟨⟨inv_init C, tinv_init C⟩, ⟨trivial, fun _ => trivial⟩, fun pre er n post h => ?_⟩).2.2
  · refine ⟨⟨inv_step hwf h.1.1 m, h.1.2.step hwf h.1.1 m⟩, ticks_step hwf h.1.1 h.1.2 h.2.1 m, ?_⟩
    obtain ⟨⟨hI, -⟩, ⟨hl, -⟩, h2⟩ := h
    have hc := two_ctl hwf hI hl h2
    cases m with
    | ctl => exact hc true
    | ctlFail => exact hc false
    | fault f =>
      show TwoFirst (faultStep C s f).trace
      rcases fault_cases C s f with h1 | ⟨_, _, _, _, _, _, _, h1⟩ | ⟨pre, e, post, _, h2, _, _, h1⟩ |
        ⟨_, _, h1⟩
      · rw [h1]; exact hc true
      · rw [h1]; exact hc true
      · rw [h1]
        refine (hc true).prefix ?_
        rw [h2]
        exact ⟨post, by simp⟩
      · rw [h1]; exact h2
    | begin n =>
      simp only [step]
      split
      · exact h2
      · split
        · exact h2.append fun x er m y h => by cases x <;> simp at h
        · exact h2
    | finish n =>
      simp only [step]
      split
      · exact h2
      · split
        · exact h2.append fun x er m y h => by cases x <;> simp at h
        · exact h2
    | destroy =>
      simp only [step, destroyStep]
      split <;> exact h2
  · cases pre <;> cases h

end Joque
