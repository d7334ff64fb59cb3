import Verif.Proof.Stuck

/-! # Where an event of the history comes from -/

namespace Joque

variable {C : Cfg}

/-- The events a single move can add in state `s`: those of a portion of the control thread, up to
a callback that throws, or the start or end of a job on its thread. -/
inductive StepEmits (C : Cfg) (s : St) : List Event → Prop where
  | none : StepEmits C s []
  | ctl (evs post : List Event) (p : Phase) (h : Emits C s (evs ++ post) p)
      (hpro : s.phase = .created → ∀ e ∈ evs, e = .resumed ∨ proEv e = true) : StepEmits C s evs
  | begin (n : Node) (hw : s.worker n = .queued) (hd : s.phase.dead = false) :
      StepEmits C s [.jobBegin n false]
  | end (n : Node) (hw : s.worker n = .running) (hd : s.phase.dead = false) :
      StepEmits C s [.jobEnd n]

theorem step_events (hwf : C.dag.WF) {s : St} (hI : Inv C s) (m : Move) :
    ∃ evs, (step C s m).trace = s.trace ++ evs ∧ StepEmits C s evs := by
  have hctl : ∀ ok, ∃ evs, (ctlStep C s ok).trace = s.trace ++ evs ∧ StepEmits C s evs := by
    intro ok
    obtain ⟨evs, h1, h2⟩ := ctl_events C s ok
    refine ⟨evs, h1, .ctl evs [] _ (by rw [List.append_nil]; exact h2) ?_⟩
    rintro hp e he
    unfold ctlStep at h1
    rw [hp] at h1
    simp only at h1
    rw [hI.createdInit hp] at h1
    exact prologue_events hwf e (by rw [h1]; exact List.mem_append_right _ he)
  cases m with
  | ctl => exact hctl true
  | ctlFail => exact hctl false
  | fault f =>
    show ∃ evs, (faultStep C s f).trace = s.trace ++ evs ∧ StepEmits C s evs
    rcases fault_cases C s f with h | ⟨pre, er, r, ref, post, h1, h2, h3⟩ |
        ⟨pre, e, post, h1, h2, _, _, h3⟩ | ⟨_, _, h3⟩
    · rw [h]; exact hctl true
    · rw [h3]; exact hctl true
    · rw [h3]
      refine ⟨pre ++ [e], rfl, .ctl _ post _ (by simpa using h1) ?_⟩
      rintro hp x hx
      unfold ctlStep at h2
      rw [hp] at h2
      simp only at h2
      rw [hI.createdInit hp] at h2
      refine prologue_events hwf x ?_
      rw [h2, List.append_cons]
      exact List.mem_append_right _ (List.mem_append_left _ hx)
    · rw [h3]; exact ⟨[], by simp, .none⟩
  | begin n =>
    simp only [step]
    split
    · exact ⟨[], by simp, .none⟩
    · rename_i hd
      split
      · rename_i hw
        exact ⟨_, rfl, .begin n hw (by simpa using hd)⟩
      · exact ⟨[], by simp, .none⟩
  | finish n =>
    simp only [step]
    split
    · exact ⟨[], by simp, .none⟩
    · rename_i hd
      split
      · rename_i hw
        exact ⟨_, rfl, .end n hw (by simpa using hd)⟩
      · exact ⟨[], by simp, .none⟩
  | destroy =>
    simp only [step, destroyStep]
    split <;> exact ⟨[], by simp, .none⟩

theorem exec_snoc (C : Cfg) (ms : List Move) (m : Move) :
    exec C (ms ++ [m]) = step C (exec C ms) m := by
  simp [exec]

/-- Every event of the history was added by one move, in the state reached by the moves before. -/
theorem event_origin (hwf : C.dag.WF) (ms : List Move) {pre post : List Event} {e : Event}
    (htr : (exec C ms).trace = pre ++ e :: post) :
    ∃ ms1 pre1 post1, (exec C ms1).trace ++ pre1 = pre ∧ StepEmits C (exec C ms1) (pre1 ++ e :: post1) ∧
      ∃ m ms2, ms = ms1 ++ m :: ms2 ∧
        (step C (exec C ms1) m).trace = (exec C ms1).trace ++ (pre1 ++ e :: post1) := by
  induction ms using List.reverseRecOn generalizing post with
  | nil => simp [exec, St.init] at htr
  | append_singleton ms m ih =>
    obtain ⟨evs, h1, h2⟩ := step_events hwf (inv_exec hwf ms) m
    rw [exec_snoc, h1, List.append_eq_append_iff] at htr
    rcases htr with ⟨as, h3, h4⟩ | ⟨bs, h3, h4⟩
    · exact ⟨ms, as, post, h3.symm, h4 ▸ h2, m, [], rfl, by rw [h1, h4]⟩
    · cases bs with
      | nil =>
        simp only [List.nil_append] at h4
        refine ⟨ms, [], post, by simpa using h3, by rw [List.nil_append, h4]; exact h2, m, [], rfl, ?_⟩
        rw [h1, List.nil_append, h4]
      | cons b bs =>
        simp only [List.cons_append, List.cons.injEq] at h4
        obtain ⟨rfl, rfl⟩ := h4
        obtain ⟨ms1, pre1, post1, a, b, m', ms2, c, d⟩ := ih h3
        exact ⟨ms1, pre1, post1, a, b, m', ms2 ++ [m], by rw [c]; simp, d⟩

/-- Unless a callback threw or memory ran out, a history that is not empty contains the whole prologue. -/
theorem pro_full (hwf : C.dag.WF) (ms : List Move) : (∃ f, .fault f ∈ ms) ∨
    (exec C ms).trace = [] ∨ (prologue C St.init).trace <+: (exec C ms).trace := by
  by_cases hv : ∃ f, .fault f ∈ ms
  · exact .inl hv
  right
  induction ms using List.reverseRecOn with
  | nil => exact .inl rfl
  | append_singleton ms m ih =>
    have hno : ∀ f, m ≠ .fault f := fun k hk => hv ⟨k, by rw [hk]; simp⟩
    obtain ⟨hI, hT⟩ := both_exec hwf ms
    have hT' := tinv_exec hwf (ms ++ [m])
    rw [exec_snoc] at hT' ⊢
    rcases ih (fun ⟨k, hk⟩ => hv ⟨k, List.mem_append_left _ hk⟩) with h | h
    · by_cases hne : (step C (exec C ms) m).trace = []
      · exact .inl hne
      right
      rcases hT'.pro with ⟨_, h1⟩ | ⟨rest, h1, _⟩ | ⟨_, hw', hpre⟩
      · exact absurd h1 hne
      · exact ⟨rest, h1.symm⟩
      have hph : (exec C ms).phase ∈ noPro ∨ (exec C ms).phase ∈ visPhases := by
        rcases hT.pro with ⟨h1, _⟩ | ⟨rest, h1, _⟩ | ⟨h1, _⟩
        · exact .inl h1
        · rw [h] at h1
          have := (List.append_eq_nil_iff.1 h1.symm).1
          rw [this] at hpre
          exact absurd (List.prefix_nil.1 hpre) hne
        · exact .inr h1
      have hbad : ∀ p, (exec C ms).phase = p → p ∉ noPro → p ∉ visPhases → False := by
        rintro p rfl h1 h2; exact hph.elim h1 h2
      have hctl : ∀ ok, (ctlStep C (exec C ms) ok).trace ≠ [] →
          (prologue C St.init).trace <+: (ctlStep C (exec C ms) ok).trace := by
        intro ok hne
        by_cases hc : (exec C ms).phase = .created
        · unfold ctlStep
          rw [hc]
          simp only
          rw [hI.createdInit hc]
          exact List.prefix_refl _
        · exfalso
          obtain ⟨evs, h1, h2⟩ := ctl_events C (exec C ms) ok
          generalize (ctlStep C (exec C ms) ok).phase = p at h2
          rw [h, List.nil_append] at h1
          cases h2 with
          | none => exact hne h1
          | prologue _ hp _ => exact hc hp
          | tick hp => exact hbad _ hp (by simp [noPro]) (by simp [visPhases])
          | resumed _ hp => exact hbad _ hp (by simp [noPro]) (by simp [visPhases])
          | afterExecution hp => exact hbad _ hp (by simp [noPro]) (by simp [visPhases])
          | notRun _ _ _ _ hp => exact hbad _ hp (by simp [noPro]) (by simp [visPhases])
          | launch _ _ _ hp => exact hbad _ hp (by simp [noPro]) (by simp [visPhases])
          | asyncFailed _ _ _ hp => exact hbad _ hp (by simp [noPro]) (by simp [visPhases])
          | deferredUb _ _ _ hp => exact hbad _ hp (by simp [noPro]) (by simp [visPhases])
          | deferred _ _ _ _ _ hp => exact hbad _ hp (by simp [noPro]) (by simp [visPhases])
          | collect _ _ _ _ _ hp => exact hbad _ hp (by simp [noPro]) (by simp [visPhases])
      cases m with
      | ctl => exact hctl true hne
      | ctlFail => exact hctl false hne
      | fault f => exact absurd rfl (hno f)
      | begin n =>
        exfalso
        have := hw' n
        simp only [step] at hne this
        split at hne
        · exact hne h
        · split at hne
          · rename_i h1 h2
            rw [if_neg h1, if_pos h2] at this
            simp [setWorker] at this
          · exact hne h
      | finish n =>
        exfalso
        have := hw' n
        simp only [step] at hne this
        split at hne
        · exact hne h
        · split at hne
          · rename_i h1 h2
            rw [if_neg h1, if_pos h2] at this
            simp [setWorker] at this
          · exact hne h
      | destroy =>
        exfalso
        simp only [step, destroyStep] at hne
        split at hne <;> exact hne h
    · right
      obtain ⟨evs, h1, _⟩ := step_events hwf hI m
      rw [h1]
      exact h.trans (List.prefix_append _ _)

end Joque
