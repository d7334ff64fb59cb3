import Verif.Model.Preset
import Verif.Proof.ExecInv5
import Verif.Proof.TraceInv3

/-! # Executing a dag whose nodes carry marks: what never changes -/

namespace Joque

/-- marks are only set -/
def Flags.Le (f g : Flags) : Prop :=
  (∀ n, f.started n = true → g.started n = true) ∧ (∀ n, f.done n = true → g.done n = true) ∧
  ∀ n, f.failed n = true → g.failed n = true

theorem Flags.Le.refl (f : Flags) : f.Le f := ⟨fun _ h => h, fun _ h => h, fun _ h => h⟩

theorem Flags.Le.trans {f g h : Flags} (a : f.Le g) (b : g.Le h) : f.Le h :=
  ⟨fun n x => b.1 n (a.1 n x), fun n x => b.2.1 n (a.2.1 n x), fun n x => b.2.2 n (a.2.2 n x)⟩

theorem le_setFlag (f : Node → Bool) (m n : Node) (h : f n = true) : setFlag f m n = true := by
  unfold setFlag; split
  · rfl
  · exact h

/-- what a portion of `cleanup_coros` leaves alone -/
structure Frame (s s' : St) (p : Phase) : Prop where
  tp : s'.toProcess = s.toProcess
  flags : s.flags.Le s'.flags
  phase : s'.phase = s.phase ∨ s'.phase = p ∨ s'.phase.active = false

theorem complete_frame {s s0 : St} {p : Phase} (h : Frame s s0 p) (ref : Node) (rest : List Slot)
    (r : RunRecord) : Frame s (complete s0 ref rest r) p := ⟨h.tp, h.flags, h.phase⟩

theorem collect_frame {C : Cfg} {s s0 : St} {p : Phase} (h : Frame s s0 p) (ref : Node)
    (hd : Handle) (rest : List Slot) : Frame s (collect C s0 ref hd rest) p := by
  unfold collect
  dsimp only
  split
  · exact ⟨h.tp, h.flags, .inr (.inr rfl)⟩
  · have key : ∀ s1 : St, s1.toProcess = s0.toProcess → s0.flags.Le s1.flags →
        s1.phase = s0.phase → ∀ r, Frame s (complete s1 ref rest r) p := by
      intro s1 e1 e2 e3 r
      exact complete_frame ⟨by rw [e1]; exact h.tp, h.flags.trans e2, by rw [e3]; exact h.phase⟩ ..
    split
    · refine key _ ?_ ?_ ?_ _
      · rfl
      · exact ⟨fun _ x => x, fun n x => le_setFlag _ _ _ x, fun n x => le_setFlag _ _ _ x⟩
      · rfl
    · refine key _ ?_ ?_ ?_ _
      · rfl
      · exact ⟨fun _ x => x, fun n x => le_setFlag _ _ _ x, fun n x => x⟩
      · rfl

theorem clean_frame (C : Cfg) (s : St) (ok d : Bool) :
    Frame s (cleanStep C s ok d) (if d then .susp true else .pick) := by
  unfold cleanStep
  split
  · exact ⟨rfl, Flags.Le.refl _, .inr (.inl rfl)⟩
  · split
    · unfold startRun
      dsimp only
      split
      · exact ⟨rfl, Flags.Le.refl _, .inr (.inr rfl)⟩
      · split
        · refine complete_frame ⟨?_, ?_, ?_⟩ ..
          · rfl
          · exact ⟨fun _ x => x, fun n x => le_setFlag _ _ _ x, fun n x => le_setFlag _ _ _ x⟩
          · exact .inl rfl
        · split
          · refine complete_frame ⟨?_, ?_, ?_⟩ ..
            · rfl
            · exact ⟨fun _ x => x, fun n x => le_setFlag _ _ _ x, fun n x => x⟩
            · exact .inl rfl
          · split
            · refine collect_frame ⟨?_, ?_, ?_⟩ ..
              · rfl
              · exact ⟨fun n x => le_setFlag _ _ _ x, fun n x => x, fun n x => x⟩
              · exact .inl rfl
            · split
              · exact ⟨rfl, ⟨fun n x => le_setFlag _ _ _ x, fun n x => x, fun n x => x⟩, .inl rfl⟩
              · exact ⟨rfl, ⟨fun n x => le_setFlag _ _ _ x, fun n x => x, fun n x => x⟩,
                  .inr (.inr rfl)⟩
    · split
      · exact collect_frame ⟨rfl, Flags.Le.refl _, .inl rfl⟩ ..
      · exact ⟨rfl, Flags.Le.refl _, .inl rfl⟩

/-! ## A node marked as started or done -/

/-- `n` waits for ever -/
structure Waits (g : Dag) (n : Node) (s : St) : Prop where
  mark : s.flags.started n = true ∨ s.flags.done n = true
  nodes : ∀ x ∈ s.toProcess, x ∈ g.nodes
  tp : s.phase.active = true → n ∈ s.toProcess
  phase : s.phase.draining = false

theorem prologue_flags (C : Cfg) (s : St) :
    (prologue C s).flags.started = s.flags.started ∧ (prologue C s).flags.done = s.flags.done ∧
    (prologue C s).flags.failed = s.flags.failed ∧
    (prologue C s).toProcess = toProcessOf C.dag ∧ (prologue C s).phase.draining = false := by
  unfold prologue
  dsimp only
  split
  · exact ⟨rfl, rfl, rfl, rfl, rfl⟩
  · exact ⟨rfl, rfl, rfl, rfl, rfl⟩
  · exact ⟨rfl, rfl, rfl, rfl, rfl⟩
  · split <;> exact ⟨rfl, rfl, rfl, rfl, rfl⟩

theorem waits_ctl {C : Cfg} (hwf : C.dag.WF) {n : Node} (hn : n ∈ C.dag.nodes) {s : St}
    (h : Waits C.dag n s) (ok : Bool) : Waits C.dag n (ctlStep C s ok) := by
  have over : ∀ p : Phase, p.active = false → p.draining = false →
      Waits C.dag n { s with phase := p } := fun p h1 h2 =>
    ⟨h.mark, h.nodes, fun hc => (by rw [show p.active = true from hc] at h1; cases h1), h2⟩
  unfold ctlStep
  cases hp : s.phase with
  | created =>
    dsimp only
    obtain ⟨h1, h2, _, h3, h4⟩ := prologue_flags C s
    refine ⟨by rw [h1, h2]; exact h.mark, ?_, fun _ => ?_, h4⟩
    · rw [h3]; intro x hx; exact ((toProcessOf_spec C.dag).2 x).1 hx
    · rw [h3]; exact ((toProcessOf_spec C.dag).2 n).2 hn
  | loopTop =>
    have htp := h.tp (by rw [hp]; rfl)
    dsimp only
    split
    · rename_i he; rw [he] at htp; cases htp
    · exact ⟨h.mark, h.nodes, fun _ => htp, rfl⟩
  | clean d =>
    have htp := h.tp (by rw [hp]; rfl)
    have hd : d = false := by
      have := h.phase
      rw [hp] at this
      cases d
      · rfl
      · cases this
    subst hd
    dsimp only
    have hf := clean_frame C s ok false
    refine ⟨?_, ?_, fun _ => ?_, ?_⟩
    · rcases h.mark with h1 | h1
      · exact .inl (hf.flags.1 n h1)
      · exact .inr (hf.flags.2.1 n h1)
    · rw [hf.tp]; exact h.nodes
    · rw [hf.tp]; exact htp
    · rcases hf.phase with h1 | h1 | h1
      · rw [h1, hp]; rfl
      · rw [h1]; rfl
      · generalize (cleanStep C s ok false).phase = q at h1
        cases q <;> first | rfl | cases h1
  | pick =>
    have htp := h.tp (by rw [hp]; rfl)
    dsimp only
    unfold pickStep
    split
    · exact ⟨h.mark, h.nodes, fun _ => htp, rfl⟩
    · obtain ⟨r, hr, h4, _⟩ := findCandidate_spec (res := C.resources) (f := s.flags)
        (used := s.used) hwf h.nodes
      rw [hr]
      cases r with
      | none =>
        dsimp only
        split
        · exact over _ rfl rfl
        · exact ⟨h.mark, h.nodes, fun _ => htp, rfl⟩
      | some m =>
        dsimp only
        obtain ⟨hE, hm⟩ := h4 m rfl
        refine ⟨h.mark, fun x hx => h.nodes x (mem_serase.1 hx).1, fun _ => ?_, rfl⟩
        refine mem_serase.2 ⟨htp, ?_⟩
        rintro rfl
        rcases h.mark with h1 | h1
        · rw [hE.notStarted] at h1; cases h1
        · rw [hE.notDone] at h1; cases h1
  | susp d =>
    have htp := h.tp (by rw [hp]; rfl)
    have hd : d = false := by
      have := h.phase
      rw [hp] at this
      cases d
      · rfl
      · cases this
    subst hd
    exact ⟨h.mark, h.nodes, fun _ => htp, rfl⟩
  | drainTop => have := h.phase; rw [hp] at this; cases this
  | finished => have := h.phase; rw [hp] at this; cases this
  | unwinding e =>
    dsimp only
    split
    · exact over _ rfl rfl
    · exact h
  | destroying =>
    dsimp only
    split
    · exact over _ rfl rfl
    · exact h
  | threw e => exact over _ rfl rfl
  | destroyed => exact h
  | ub => exact h
  | abort => exact h
  | outOfFuel => exact h

theorem waits_step {C : Cfg} (hwf : C.dag.WF) {n : Node} (hn : n ∈ C.dag.nodes) {s : St}
    (h : Waits C.dag n s) (m : Move) : Waits C.dag n (step C s m) := by
  cases m with
  | ctl => exact waits_ctl hwf hn h true
  | ctlFail => exact waits_ctl hwf hn h false
  | fault f =>
    have h' := waits_ctl hwf hn h true
    show Waits C.dag n (faultStep C s f)
    rcases fault_cases C s f with h1 | ⟨_, _, _, _, _, _, _, h1⟩ | ⟨_, _, _, _, _, _, _, h1⟩ |
      ⟨_, _, h1⟩ <;> rw [h1]
    · exact h'
    · exact ⟨h'.mark, h'.nodes, fun hc => (by cases hc), rfl⟩
    · exact ⟨h.mark, h.nodes, fun hc => (by cases hc), rfl⟩
    · exact ⟨h.mark, h.nodes, fun hc => (by cases hc), rfl⟩
  | begin x =>
    unfold step
    dsimp only
    split
    · exact h
    · split
      · exact ⟨h.mark, h.nodes, h.tp, h.phase⟩
      · exact h
  | finish x =>
    unfold step
    dsimp only
    split
    · exact h
    · split
      · exact ⟨h.mark, h.nodes, h.tp, h.phase⟩
      · exact h
  | destroy =>
    show Waits C.dag n (destroyStep s)
    unfold destroyStep
    split
    all_goals first
      | exact h
      | exact ⟨h.mark, h.nodes, fun hc => (by cases hc), rfl⟩

end Joque
