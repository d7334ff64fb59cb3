import Verif.Props.Exec5

/-! # Visitor callbacks that throw -/

namespace Joque

/-! ## C64 -/

/-- The callbacks a portion of `exec` makes, as seen from the outside: what the next portion of the
control thread adds to the history. -/
def NextEvents (C : Cfg) (ms : List Move) (evs : List Event) : Prop :=
  (exec C (ms ++ [.ctl])).trace = (exec C ms).trace ++ evs

/-- a portion with a fault after its `k`-th event -/
theorem cut_portion (C : Cfg) (hwf : C.dag.WF) (ms : List Move) (evs : List Event) (f : Fault) (k : Nat)
    (e : Event) (hf : ∀ s, faultStep C s f = throwStep C s f k)
    (hn : NextEvents C ms evs) (hk : evs[k]? = some e) (hc : f.cuts e = true) :
    (exec C (ms ++ [.fault f])).phase = .unwinding f.exc ∧
    (exec C (ms ++ [.fault f])).trace = (exec C ms).trace ++ evs.take (k + 1) := by
  have hs : ∀ m, exec C (ms ++ [m]) = step C (exec C ms) m := fun m => by rw [exec_append]; rfl
  unfold NextEvents at hn
  rw [hs] at hn ⊢
  have hn' : (ctlStep C (exec C ms) true).trace = (exec C ms).trace ++ evs := hn
  obtain ⟨evs', h1, h2⟩ := ctl_events C (exec C ms) true
  have he : evs' = evs := List.append_cancel_left (h1.symm.trans hn')
  subst he
  show (faultStep C (exec C ms) f).phase = _ ∧ (faultStep C (exec C ms) f).trace = _
  rw [hf]
  unfold throwStep
  dsimp only
  have hg : (ctlStep C (exec C ms) true).trace[(exec C ms).trace.length + k]? = some e := by
    rw [hn', List.getElem?_append_right (by omega), Nat.add_sub_cancel_left, hk]
  rw [hg]
  dsimp only
  rw [if_pos hc]
  split
  · refine ⟨rfl, ?_⟩
    dsimp only
    rw [hn']
    congr 1
    rename_i er r ref
    have hsplit : evs' = evs'.take k ++ Event.afterRun er r ref :: evs'.drop (k + 1) := by
      obtain ⟨hlt, hv⟩ := List.getElem?_eq_some_iff.1 hk
      rw [← hv, ← List.drop_eq_getElem_cons hlt, List.take_append_drop]
    have hlast : evs'.drop (k + 1) = [] := by
      rw [hsplit] at h2
      rcases h2.after_last with h | ⟨h, _⟩
      · exfalso
        unfold ctlStep at hn'
        rw [h] at hn'
        dsimp only at hn'
        rw [(inv_exec hwf ms).createdInit h] at hn'
        rcases prologue_events hwf (.afterRun er r ref)
          (by rw [hn', hsplit]; simp) with h | h
        · cases h
        · simp [proEv] at h
      · exact h
    rw [List.take_of_length_le]
    have hl := congrArg List.length hsplit
    rw [hlast] at hl
    simp at hl
    omega
  · refine ⟨rfl, ?_⟩
    dsimp only
    rw [hn', List.take_append]
    congr 1
    · exact List.take_of_length_le (by omega)
    · congr 1; omega

/-- **C64**, part 1.  Wherever a callback is made, it may throw: then nothing of what the portion
would have done after it happens, and the execution is being left by the exception. -/
theorem C64_thrown (C : Cfg) (hwf : C.dag.WF) (ms : List Move) (evs : List Event) (k : Nat) (e : Event)
    (hn : NextEvents C ms evs) (hk : evs[k]? = some e) (hc : e.isCallback = true) :
    (exec C (ms ++ [.visThrow k])).phase = .unwinding .visitor ∧
    (exec C (ms ++ [.visThrow k])).trace = (exec C ms).trace ++ evs.take (k + 1) :=
  cut_portion C hwf ms evs (.visitor k) k e (fun _ => rfl) hn hk hc

/-- the phases after an exception `x` -/
def excPhases (x : Exc) : List Phase := [.unwinding x, .threw x, .destroying, .destroyed, .ub]

theorem exc_stays (C : Cfg) (x : Exc) (s : St) (m : Move) (h : s.phase ∈ excPhases x) :
    (step C s m).phase ∈ excPhases x := by
  have hctl : ∀ ok, (ctlStep C s ok).phase ∈ excPhases x := by
    intro ok
    unfold ctlStep
    simp only [excPhases, List.mem_cons, List.not_mem_nil, or_false] at h
    rcases h with h | h | h | h | h <;> rw [h] <;> dsimp only
    · split
      · simp [excPhases]
      · rw [h]; simp [excPhases]
    · simp [excPhases]
    · split
      · simp [excPhases]
      · rw [h]; simp [excPhases]
    · rw [h]; simp [excPhases]
    · rw [h]; simp [excPhases]
  by_cases hm : m = .ctl
  · subst hm; exact hctl true
  by_cases hm2 : m = .ctlFail
  · subst hm2; exact hctl false
  by_cases hv : ∃ f, m = .fault f
  · obtain ⟨f, rfl⟩ := hv
    show (faultStep C s f).phase ∈ _
    rw [fault_quiet C f]
    · exact hctl true
    · simp only [excPhases, List.mem_cons, List.not_mem_nil, or_false] at h
      rcases h with h | h | h | h | h <;> simp [h]
  · rcases phase_other (C := C) (s := s) hm hm2 (fun k hk => hv ⟨k, hk⟩) with h1 | h1 <;> rw [h1]
    · exact h
    · simp [excPhases]

/-- After an exception: the execution never returns a record; if it ends with an exception it is this
one; no callback is made any more and no job is launched, only those launched before begin or end. -/
theorem nothing_new (C : Cfg) (hwf : C.dag.WF) (ms ms' : List Move) (x : Exc)
    (hp : (exec C ms).phase = .unwinding x) :
    (exec C (ms ++ ms')).phase ≠ .finished ∧
    (∀ e, (exec C (ms ++ ms')).phase = .threw e → e = x) ∧
    ∃ post, (exec C (ms ++ ms')).trace = (exec C ms).trace ++ post ∧
      ∀ e ∈ post, e.isCallback = false ∧
        ∃ n, .launch n ∈ (exec C ms).trace ∧ (e = .jobBegin n false ∨ e = .jobEnd n) := by
  have hv : (exec C (ms ++ ms')).phase ∈ excPhases x := by
    rw [exec_append]
    exact foldl_inv (P := fun s => s.phase ∈ excPhases x) (fun s m h => exc_stays C x s m h) ms' _
      (by rw [hp]; simp [excPhases])
  refine ⟨fun h => ?_, fun e h => ?_, ?_⟩
  · rw [h] at hv; simp [excPhases] at hv
  · rw [h] at hv; simpa [excPhases] using hv
  · obtain ⟨post, h1, h2⟩ := C18_nothing_new C hwf ms ms' (.inl ⟨_, hp⟩)
    refine ⟨post, h1, fun e he => ?_⟩
    obtain ⟨n, hn, h⟩ := h2 e he
    refine ⟨?_, n, hn, h⟩
    rcases h with rfl | rfl <;> rfl

/-- **C64**, part 2.  After a callback threw: the execution never returns a record; if it ends with
an exception it is the visitor's; no callback is made any more and no job is launched, only those
launched before begin or end. -/
theorem C64_nothing_new (C : Cfg) (hwf : C.dag.WF) (ms ms' : List Move)
    (hp : (exec C ms).phase = .unwinding .visitor) :
    (exec C (ms ++ ms')).phase ≠ .finished ∧
    (∀ e, (exec C (ms ++ ms')).phase = .threw e → e = .visitor) ∧
    ∃ post, (exec C (ms ++ ms')).trace = (exec C ms).trace ++ post ∧
      ∀ e ∈ post, e.isCallback = false ∧
        ∃ n, .launch n ∈ (exec C ms).trace ∧ (e = .jobBegin n false ∨ e = .jobEnd n) :=
  nothing_new C hwf ms ms' .visitor hp

/-- **C64**, part 3.  The exception is delivered: once the jobs that were launched have ended, the
`tick()` that is under way ends, and `result()` throws it; at that moment no job is running. -/
theorem C64_delivered (C : Cfg) (hwf : C.dag.WF) (ms : List Move)
    (hp : (exec C ms).phase = .unwinding .visitor) :
    ∃ ns, (exec C (ms ++ finishAll ns ++ [.ctl])).phase = .threw .visitor ∧
      ∀ n, ¬ Running (exec C (ms ++ finishAll ns ++ [.ctl])).trace n := by
  obtain ⟨ns, h⟩ := C18_delivered C ms .visitor hp
  exact ⟨ns, h, (C18_joined C hwf _ (.inl ⟨_, h⟩) []).1⟩

/-- **C64**, part 4.  A visitor that does not throw is never the reason: without a throwing
callback, no execution ends that way. -/
theorem C64_only (C : Cfg) (ms : List Move) (hno : ∀ k, .visThrow k ∉ ms) :
    (exec C ms).phase ≠ .unwinding .visitor ∧ (exec C ms).phase ≠ .threw .visitor := by
  constructor <;> intro h
  · obtain ⟨k, hk⟩ := vis_only ms (.inl h); exact hno k hk
  · obtain ⟨k, hk⟩ := vis_only ms (.inr h); exact hno k hk

/-- in a callback of the prologue, in `on_tick`, `before_run`, `on_run_log`, `after_run` and
`after_execution`: the exception arrives.  A portion whose event is no callback cannot throw. -/
example : ([[.visThrow 3, .ctl], [.ctl, .visThrow 0, .ctl],
      List.replicate 6 .ctl ++ [.visThrow 0, .ctl], List.replicate 6 .ctl ++ [.visThrow 3, .ctl],
      List.replicate 6 .ctl ++ [.visThrow 4, .ctl],
      List.replicate 30 .ctl ++ [.visThrow 0, .ctl]] : List (List Move)).map
        (fun ms => ((exec (Ex.cfg 0) ms).phase, (exec (Ex.cfg 0) ms).trace.length)) =
      [(.threw .visitor, 4), (.threw .visitor, 12), (.threw .visitor, 15), (.threw .visitor, 18),
       (.threw .visitor, 19), (.threw .visitor, 42)] ∧
    (exec (Ex.cfg 0) (List.replicate 6 .ctl ++ [.visThrow 1])).trace =
      (exec (Ex.cfg 0) (List.replicate 7 .ctl)).trace :=
  ⟨by decide +kernel, by decide +kernel⟩

/-- `before_run` of the second task throws while the job of the first is on its thread: the
`tick()` waits for it (the portion does not end), then the exception arrives; the second job was
never launched -/
example : (exec (Ex.cfg 2) (List.replicate 13 .ctl ++ [.visThrow 0, .ctl, .ctl])).phase =
      .unwinding .visitor ∧
    (exec (Ex.cfg 2) (List.replicate 13 .ctl ++
      [.visThrow 0, .ctl, .begin 1, .ctl, .finish 1, .ctl])).phase = .threw .visitor ∧
    (exec (Ex.cfg 2) (List.replicate 13 .ctl ++
      [.visThrow 0, .ctl, .begin 1, .ctl, .finish 1, .ctl])).trace.drop 18 =
      [.beforeRun ⟨⟨0, 0, 0, 0⟩, 5, []⟩ 5, .jobBegin 1 false, .jobEnd 1] :=
  ⟨by decide +kernel, by decide +kernel, by decide +kernel⟩

end Joque
