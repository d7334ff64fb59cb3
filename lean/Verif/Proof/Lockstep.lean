import Verif.Proof.Replay
import Verif.Proof.Pace

/-! # Executions in lockstep until they finish -/

namespace Joque

variable {C : Cfg}

theorem not_lost {ms : List Move} (h : (exec C ms).phase = .finished) (ms1 ms2 : List Move)
    (hms : ms = ms1 ++ ms2) : (exec C ms1).phase.lost = false := by
  cases hl : (exec C ms1).phase.lost with
  | false => rfl
  | true =>
    have := lost_exec hl ms2
    rw [← hms, h] at this
    cases this

/-- the ticks are part of what the control thread does -/
theorem foundIn_control (tr : List Event) (n : Node) (k : Nat) :
    FoundIn tr n k ↔ FoundIn (control tr) n k := by
  constructor
  · rintro ⟨p, er, r, ref, q, rfl, h1, h2, h3⟩
    refine ⟨control p, er.untimed, r.untimed, ref, control q, ?_, h1, h2, ?_⟩
    · rw [control_append]; rfl
    · rw [control_resumed, h3]
  · rintro ⟨p, er, r, ref, q, h0, h1, h2, h3⟩
    obtain ⟨a, b, rfl, ha, hb⟩ := List.filterMap_eq_append_iff.1 h0
    obtain ⟨c, e, d, rfl, hc, he, hd⟩ := List.filterMap_eq_cons_iff.1 hb
    cases e with
    | afterRun er' r' ref' =>
      simp only [Event.control, Option.some.injEq, Event.afterRun.injEq] at he
      obtain ⟨_, he, _⟩ := he
      refine ⟨a ++ c, er', r', ref', d, by simp, ?_, ?_, ?_⟩
      · rw [← h1, ← he]; rfl
      · rw [← he] at h2; exact h2
      · rw [← h3, ← ha, List.count_append]
        have h0 : c.count .resumed = 0 := by
          rw [← control_resumed]
          have : control c = [] := List.filterMap_eq_nil_iff.2 hc
          rw [this]; rfl
        rw [h0]
        exact (control_resumed a).symm
    | _ => simp [Event.control] at he

theorem launchedIn_control (tr : List Event) (n : Node) (k : Nat) :
    LaunchedIn tr n k ↔ LaunchedIn (control tr) n k := by
  constructor
  · rintro ⟨p, q, rfl, h⟩
    refine ⟨control p, control q, ?_, ?_⟩
    · rw [control_append]; rfl
    · rw [control_resumed, h]
  · rintro ⟨p, q, h0, h⟩
    obtain ⟨a, b, rfl, ha, hb⟩ := List.filterMap_eq_append_iff.1 h0
    obtain ⟨c, e, d, rfl, hc, he, hd⟩ := List.filterMap_eq_cons_iff.1 hb
    cases e with
    | launch m =>
      simp only [Event.control, Option.some.injEq, Event.launch.injEq] at he
      subst he
      refine ⟨a ++ c, d, by simp, ?_⟩
      rw [← h, ← ha, List.count_append]
      have h0 : c.count .resumed = 0 := by
        rw [← control_resumed]
        have : control c = [] := List.filterMap_eq_nil_iff.2 hc
        rw [this]; rfl
      rw [h0]
      exact (control_resumed a).symm
    | _ => simp [Event.control] at he

theorem LaunchedIn.grow {tr ext : List Event} {n : Node} {k : Nat} (h : LaunchedIn tr n k) :
    LaunchedIn (tr ++ ext) n k := by
  obtain ⟨p, q, rfl, h⟩ := h
  exact ⟨p, q ++ ext, by simp, h⟩

/-- a job that is launched in the same tick is found finished in the same tick -/
def TickAgree (tr tr' : List Event) : Prop :=
  ∀ n j k, LaunchedIn tr n j → LaunchedIn tr' n j → FoundIn tr n k → FoundIn tr' n k

/-- one execution finds the job finished, the other not yet -/
theorem apart_ticks (hwf : C.dag.WF) {ms1 ms2 ms1' ms2' : List Move} (h : Abreast (exec C ms1) (exec C ms1'))
    {d : Bool} {sl : Slot} {rest : List Slot} (hp : (exec C ms1).phase = .clean d)
    (ht : (exec C ms1).todo = sl :: rest) (hl : sl.h.launched = true)
    (hw : (exec C ms1).worker sl.h.node = .finished) (hw' : (exec C ms1').worker sl.h.node ≠ .finished)
    {m m' : Move} (hm : step C (exec C ms1) m = ctlStep C (exec C ms1) true)
    (hm' : step C (exec C ms1') m' = ctlStep C (exec C ms1') true)
    (hf : (exec C (ms1 ++ m :: ms2)).phase = .finished) :
    ¬ TickAgree (exec C (ms1 ++ m :: ms2)).trace (exec C (ms1' ++ m' :: ms2')).trace := by
  intro hS
  -- the first one
  have h1 : FoundIn (exec C (ms1 ++ m :: ms2)).trace sl.h.node ((exec C ms1).trace.count .resumed) := by
    have hnl := not_lost hf (ms1 ++ [m]) ms2 (by simp)
    rw [exec_snoc, hm] at hnl
    obtain ⟨ext, hext⟩ := exec_grows hwf (ms1 ++ [m]) ms2
    have e : ms1 ++ [m] ++ ms2 = ms1 ++ m :: ms2 := by simp
    rw [e, exec_snoc, hm] at hext
    have hstep : ctlStep C (exec C ms1) true = collect C (exec C ms1) sl.ref sl.h rest := by
      unfold ctlStep
      rw [hp]
      dsimp only
      unfold cleanStep
      rw [ht]
      simp [hl, hw]
    rw [hstep] at hnl hext
    unfold collect at hnl hext
    dsimp only at hnl hext
    split at hnl
    · cases hnl
    · rename_i rc hrc
      rw [hrc] at hext
      dsimp only at hext
      have htr : ∀ (s : St) r, (complete s sl.ref rest r).trace = s.trace ++ [.afterRun s.erec r sl.ref] :=
        fun _ _ => rfl
      rw [htr] at hext
      refine ⟨_, _, _, _, ext, by rw [← hext, List.append_assoc]; rfl, rfl, ?_, ?_⟩
      · dsimp only; split <;> simp
      · split <;> simp [St.emit, List.count_append]
  obtain ⟨j, hj⟩ : ∃ j, LaunchedIn (exec C ms1).trace sl.h.node j := by
    have := launched_event (tinv_exec hwf ms1) (by rw [hp]; rfl) (h := sl.h)
      (by simp [handles, ht]) hl
    obtain ⟨p, q, hpq⟩ := List.append_of_mem this
    exact ⟨_, p, q, hpq, rfl⟩
  have hj' : LaunchedIn (exec C ms1').trace sl.h.node j := by
    rw [launchedIn_control, ← h.trace, ← launchedIn_control]; exact hj
  have h2 : FoundIn (exec C (ms1' ++ m' :: ms2')).trace sl.h.node ((exec C ms1).trace.count .resumed) := by
    obtain ⟨ext, hext⟩ := exec_grows hwf ms1 (m :: ms2)
    obtain ⟨ext', hext'⟩ := exec_grows hwf ms1' (m' :: ms2')
    refine hS _ j _ ?_ ?_ h1
    · rw [← hext]; exact hj.grow
    · rw [← hext']; exact hj'.grow
  -- the second one
  have hti := h.todo
  rw [ht] at hti
  cases ht' : (exec C ms1').todo with
  | nil => rw [ht'] at hti; simp at hti
  | cons sl' rest' =>
    rw [ht'] at hti
    simp only [List.map_cons, List.cons.injEq] at hti
    have hh : sl.h.untimed = sl'.h.untimed := congrArg (fun x : Slot => x.h) hti.1
    have hl' : sl.h.launched = sl'.h.launched := by
      have := congrArg Handle.launched hh
      exact this
    have hn : sl.h.node = sl'.h.node := by
      have := congrArg Handle.node hh
      exact this
    have hp' : (exec C ms1').phase = .clean d := by rw [← h.phase, hp]
    have hI := inv_exec (C := C) hwf ms1'
    have hT := tinv_exec (C := C) hwf ms1'
    have hstep : step C (exec C ms1') m' = { exec C ms1' with
        kept := (exec C ms1').kept ++ [sl'.h], passed := (exec C ms1').passed ++ [sl'.ref]
        todo := rest' } := by
      rw [hm']
      unfold ctlStep
      rw [hp']
      dsimp only
      unfold cleanStep
      rw [ht']
      rw [hn] at hw'
      rw [hl'] at hl
      simp [hl, hw']
    have hW : HeldBack sl.h.node ((exec C ms1).trace.count .resumed) (exec C (ms1' ++ [m'])) := by
      rw [exec_snoc, hstep]
      refine ⟨?_, .inr ⟨by rw [h.ticks], .inl ⟨⟨d, hp'⟩, by simp [hn]⟩⟩⟩
      intro p er r ref q hq hr
      exfalso
      dsimp only at hq
      have hrec : r ∈ (exec C ms1').erec.runs := by
        rw [← hT.recs]
        exact mem_recsOf.2 ⟨er, ref, by rw [hq]; simp⟩
      have hnd := hI.nodup
      unfold allNodes handles at hnd
      rw [List.append_assoc] at hnd
      refine List.disjoint_of_nodup_append hnd (a := sl'.h.node) ?_ (List.mem_append_left _ ?_)
      · rw [ht']; simp
      · exact List.mem_map.2 ⟨r, hrec, hr.trans hn⟩
    have hW' := heldBack_exec hwf hW ms2'
    rw [List.append_assoc] at hW'
    obtain ⟨p, er, r, ref, q, hq, hr, _, hk⟩ := h2
    have := hW'.1 p er r ref q hq hr
    omega

theorem lockstep (hwf : C.dag.WF) : ∀ (N : Nat) (ms1 ms2 ms1' ms2' : List Move),
    ms2.length + ms2'.length = N → Abreast (exec C ms1) (exec C ms1') →
    (exec C (ms1 ++ ms2)).phase = .finished → (exec C (ms1' ++ ms2')).phase = .finished →
    TickAgree (exec C (ms1 ++ ms2)).trace (exec C (ms1' ++ ms2')).trace →
    TickAgree (exec C (ms1' ++ ms2')).trace (exec C (ms1 ++ ms2)).trace →
    Abreast (exec C (ms1 ++ ms2)) (exec C (ms1' ++ ms2')) := by
  intro N
  induction N using Nat.strong_induction_on with
  | _ N ih =>
  intro ms1 ms2 ms1' ms2' hN hs hf hf' hS hS'
  -- a move of the first execution that does not concern the control thread
  have left : ∀ m rest, ms2 = m :: rest → Abreast (step C (exec C ms1) m) (exec C ms1) →
      Abreast (exec C (ms1 ++ ms2)) (exec C (ms1' ++ ms2')) := by
    rintro m rest rfl h
    have e : ms1 ++ m :: rest = (ms1 ++ [m]) ++ rest := by simp
    rw [e] at hf hS hS' ⊢
    refine ih (rest.length + ms2'.length) (by simp at hN; omega) _ _ _ _ rfl ?_ hf hf' hS hS'
    rw [exec_snoc]
    exact ⟨h.1.trans hs.1, h.2.trans hs.2, h.3.trans hs.3, h.4.trans hs.4, h.5.trans hs.5, h.6.trans hs.6,
      h.7.trans hs.7, h.8.trans hs.8, h.9.trans hs.9⟩
  have right : ∀ m rest, ms2' = m :: rest → Abreast (step C (exec C ms1') m) (exec C ms1') →
      Abreast (exec C (ms1 ++ ms2)) (exec C (ms1' ++ ms2')) := by
    rintro m rest rfl h
    have e : ms1' ++ m :: rest = (ms1' ++ [m]) ++ rest := by simp
    rw [e] at hf' hS hS' ⊢
    refine ih (ms2.length + rest.length) (by simp at hN; omega) _ _ _ _ rfl ?_ hf hf' hS hS'
    rw [exec_snoc]
    have h := h.symm
    exact ⟨hs.1.trans h.1, hs.2.trans h.2, hs.3.trans h.3, hs.4.trans h.4, hs.5.trans h.5, hs.6.trans h.6,
      hs.7.trans h.7, hs.8.trans h.8, hs.9.trans h.9⟩
  -- a finished execution has no further portion
  have noMore : ∀ (a b : List Move) m, (exec C a).phase = .finished →
      (exec C (a ++ m :: b)).phase = .finished → step C (exec C a) m = ctlStep C (exec C a) true → False := by
    intro a b m h1 h2 h3
    have h4 := not_lost h2 (a ++ [m]) b (by simp)
    rw [exec_snoc, h3] at h4
    unfold ctlStep at h4
    rw [h1] at h4
    cases h4
  have hnl : ∀ (a b : List Move) m, (exec C (a ++ m :: b)).phase = .finished →
      ¬ (step C (exec C a) m).phase.lost = true := by
    intro a b m h1 h2
    have h4 := not_lost h1 (a ++ [m]) b (by simp)
    rw [exec_snoc, h2] at h4
    cases h4
  cases ms2 with
  | nil =>
    cases ms2' with
    | nil => simpa using hs
    | cons m' rest' =>
      rcases step_kind (C := C) (exec C ms1') m' with h | h | h
      · exact absurd h (hnl _ _ _ hf')
      · rw [List.append_nil] at hf
        exact (noMore _ _ _ (by rw [← hs.phase]; exact hf) hf' h).elim
      · exact right m' rest' rfl h
  | cons m rest =>
    rcases step_kind (C := C) (exec C ms1) m with h | h | h
    · exact absurd h (hnl _ _ _ hf)
    · cases ms2' with
      | nil =>
        rw [List.append_nil] at hf'
        exact (noMore _ _ _ (by rw [hs.phase]; exact hf') hf h).elim
      | cons m' rest' =>
        rcases step_kind (C := C) (exec C ms1') m' with h' | h' | h'
        · exact absurd h' (hnl _ _ _ hf')
        · have e : ms1 ++ m :: rest = (ms1 ++ [m]) ++ rest := by simp
          have e' : ms1' ++ m' :: rest' = (ms1' ++ [m']) ++ rest' := by simp
          have hl := not_lost hf ms1 (m :: rest) rfl
          have hsame : Abreast (ctlStep C (exec C ms1) true) (ctlStep C (exec C ms1') true) := by
            refine abreast_ctl hs ?_ ⟨?_, ?_⟩ ?_
            · intro hc
              rw [(inv_exec hwf ms1).createdInit hc,
                (inv_exec hwf ms1').createdInit (by rw [← hs.phase]; exact hc)]
            · intro e he
              rw [he] at hl
              cases hl
            · intro he
              rw [he] at hl
              cases hl
            · intro d sl rs hp ht hla
              constructor
              · intro hw
                by_contra hw'
                exact apart_ticks hwf hs hp ht hla hw hw' h h' hf hS
              · intro hw
                by_contra hw'
                have hti := hs.todo
                rw [ht] at hti
                cases ht' : (exec C ms1').todo with
                | nil => rw [ht'] at hti; simp at hti
                | cons sl' rs' =>
                  rw [ht'] at hti
                  simp only [List.map_cons, List.cons.injEq] at hti
                  have hh : sl.h.untimed = sl'.h.untimed := congrArg (fun x : Slot => x.h) hti.1
                  have hl' : sl.h.launched = sl'.h.launched := by
                    have := congrArg Handle.launched hh
                    exact this
                  have hn : sl.h.node = sl'.h.node := by
                    have := congrArg Handle.node hh
                    exact this
                  rw [hn] at hw hw'
                  exact apart_ticks hwf hs.symm (hs.phase.symm.trans hp) ht' (hl' ▸ hla) hw hw' h' h hf' hS'
          rw [e] at hf hS hS' ⊢
          rw [e'] at hf' hS hS' ⊢
          refine ih (rest.length + rest'.length) (by simp at hN; omega) _ _ _ _ rfl ?_ hf hf' hS hS'
          rw [exec_snoc, exec_snoc, h, h']
          exact hsame
        · exact right m' rest' rfl h'
    · exact left m rest rfl h

end Joque
