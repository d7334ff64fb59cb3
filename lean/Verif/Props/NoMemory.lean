import Verif.Props.Deliver

/-! # Running out of memory inside the engine -/

namespace Joque

/-! ## C101 -/

/-- **C101**, part 1.  Let the engine run out of memory after any call it makes to the visitor, after
being resumed, or after a job that it ran itself: then nothing of what it would have done after that
happens, and the execution is being left by the exception. -/
theorem C101_after_call (C : Cfg) (hwf : C.dag.WF) (ms : List Move) (evs : List Event) (k : Nat)
    (e : Event) (hn : NextEvents C ms evs) (hk : evs[k]? = some e)
    (hc : (∀ n, e ≠ .launch n) ∧ ∀ n b, e ≠ .jobBegin n b) :
    (exec C (ms ++ [.fault (.memory k)])).phase = .unwinding .noMemory ∧
    (exec C (ms ++ [.fault (.memory k)])).trace = (exec C ms).trace ++ evs.take (k + 1) :=
  cut_portion C hwf ms evs (.memory k) k e (fun _ => rfl) hn hk (by
    cases e <;> simp_all [Fault.cuts])

/-- **C101**, part 2.  Let the engine run out of memory anywhere else, while it is between two such
calls: the history stays as it is, and the execution is being left by the exception. -/
theorem C101_between_calls (C : Cfg) (ms : List Move)
    (hp : (exec C ms).phase = .loopTop ∨ (∃ d, (exec C ms).phase = .clean d) ∨
      (exec C ms).phase = .pick ∨ (exec C ms).phase = .drainTop) :
    (exec C (ms ++ [.fault .memoryBefore])).phase = .unwinding .noMemory ∧
    (exec C (ms ++ [.fault .memoryBefore])).trace = (exec C ms).trace := by
  rw [exec_append]
  show (faultStep C (exec C ms) .memoryBefore).phase = _ ∧
    (faultStep C (exec C ms) .memoryBefore).trace = _
  unfold faultStep
  rcases hp with hp | ⟨d, hp⟩ | hp | hp <;> rw [hp] <;> exact ⟨rfl, rfl⟩

/-- **C101**, part 3.  Nothing is made up: whatever fails, and wherever, the history is the one of an
execution in which nothing failed at that point, cut off. -/
theorem C101_history (C : Cfg) (ms : List Move) (f : Fault) :
    (exec C ms).trace <+: (exec C (ms ++ [.fault f])).trace ∧
    (exec C (ms ++ [.fault f])).trace <+: (exec C (ms ++ [.ctl])).trace := by
  obtain ⟨evs, h, _⟩ := ctl_events C (exec C ms) true
  have h' : (exec C (ms ++ [.ctl])).trace = (exec C ms).trace ++ evs := by
    rw [exec_append]; exact h
  have hf : (exec C (ms ++ [.fault f])).trace = (faultStep C (exec C ms) f).trace := by
    rw [exec_append]; rfl
  rw [h', hf]
  rcases fault_cases C (exec C ms) f with h1 | ⟨pre, er, r, ref, post, _, h2, h1⟩ |
    ⟨pre, e, post, _, h2, _, _, h1⟩ | ⟨_, _, h1⟩
  · rw [h1, h]; exact ⟨List.prefix_append _ _, List.prefix_refl _⟩
  · rw [h1]; show (exec C ms).trace <+: (ctlStep C (exec C ms) true).trace ∧
      (ctlStep C (exec C ms) true).trace <+: _
    rw [h]; exact ⟨List.prefix_append _ _, List.prefix_refl _⟩
  · rw [h1, ← h, h2]
    exact ⟨List.prefix_append _ _, ⟨post, by simp⟩⟩
  · rw [h1]; exact ⟨List.prefix_refl _, List.prefix_append _ _⟩

/-- **C101**, part 4.  From then on the execution never returns a record; if it ends with an exception it
is this one; no callback is made any more and no job is launched, only those launched before begin or
end. -/
theorem C101_nothing_new (C : Cfg) (hwf : C.dag.WF) (ms ms' : List Move)
    (hp : (exec C ms).phase = .unwinding .noMemory) :
    (exec C (ms ++ ms')).phase ≠ .finished ∧
    (∀ e, (exec C (ms ++ ms')).phase = .threw e → e = .noMemory) ∧
    ∃ post, (exec C (ms ++ ms')).trace = (exec C ms).trace ++ post ∧
      ∀ e ∈ post, e.isCallback = false ∧
        ∃ n, .launch n ∈ (exec C ms).trace ∧ (e = .jobBegin n false ∨ e = .jobEnd n) :=
  nothing_new C hwf ms ms' .noMemory hp

/-- **C101**, part 5.  The exception is delivered, exactly when every job that was ever handed to a
thread has ended: the `tick()` that is under way waits for that, ends, and `result()` throws. -/
theorem C101_delivered (C : Cfg) (hwf : C.dag.WF) (ms ms' : List Move)
    (hp : (exec C ms).phase = .unwinding .noMemory)
    (hw : ∀ m ∈ ms', ∃ n, m = .begin n ∨ m = .finish n) :
    ((exec C (ms ++ ms' ++ [.ctl])).phase = .threw .noMemory ↔
      AllEnded (exec C (ms ++ ms')).trace) ∧
    ∃ ns, (exec C (ms ++ finishAll ns ++ [.ctl])).phase = .threw .noMemory := by
  refine ⟨?_, C18_delivered C ms .noMemory hp⟩
  have hp' : (exec C (ms ++ ms')).phase = .unwinding .noMemory := by
    rw [exec_append]
    have : ∀ (l : List Move) (s : St), (∀ m ∈ l, ∃ n, m = .begin n ∨ m = .finish n) →
        (l.foldl (step C) s).phase = s.phase := by
      intro l
      induction l with
      | nil => intro s _; rfl
      | cons m l ih =>
        intro s h
        rw [List.foldl_cons, ih _ fun x hx => h x (List.mem_cons_of_mem _ hx)]
        obtain ⟨n, rfl | rfl⟩ := h m List.mem_cons_self
        · simp only [step]; split <;> (try split) <;> rfl
        · simp only [step]; split <;> (try split) <;> rfl
    rw [this ms' _ hw, hp]
  obtain ⟨h1, h2⟩ := C18_delivery_exact C hwf (ms ++ ms') .noMemory hp'
  refine ⟨fun h => ?_, h1⟩
  by_contra hc
  rw [h2 hc, hp'] at h
  cases h

/-- **C101**, part 6.  It happens only if memory does run out, and never after the end: an execution
that returned its record, or ended with another exception, is not affected any more. -/
theorem C101_only (C : Cfg) (ms : List Move)
    (h : (exec C ms).phase = .unwinding .noMemory ∨ (exec C ms).phase = .threw .noMemory) :
    ∃ pre f post, ms = pre ++ .fault f :: post ∧ f.exc = .noMemory ∧
      ((exec C pre).phase = .created ∨ (exec C pre).phase = .loopTop ∨
        (∃ d, (exec C pre).phase = .susp d) ∨ (∃ d, (exec C pre).phase = .clean d) ∨
        (exec C pre).phase = .pick ∨ (exec C pre).phase = .drainTop) := by
  induction ms using List.reverseRecOn with
  | nil => rcases h with h | h <;> cases h
  | append_singleton ms m ih =>
    by_cases hb : (exec C ms).phase = .unwinding .noMemory ∨ (exec C ms).phase = .threw .noMemory
    · obtain ⟨pre, f, post, rfl, h1⟩ := ih hb
      exact ⟨pre, f, post ++ [m], by simp, h1⟩
    rw [exec_append] at h
    simp only [List.foldl] at h
    have hctl : ∀ ok, ¬ ((ctlStep C (exec C ms) ok).phase = .unwinding .noMemory ∨
        (ctlStep C (exec C ms) ok).phase = .threw .noMemory) := by
      rintro ok (hc | hc)
      · rcases ctl_unwinding hc with ⟨hc, _⟩ | ⟨_, hc⟩ | ⟨_, hc, _⟩
        · exact hb (.inl hc)
        · unfold prologue at hc
          simp only at hc
          split at hc <;> (try cases hc)
          split at hc <;> cases hc
        · cases hc
      · exact hb (.inl (ctl_threw hc))
    by_cases hm : m = .ctl
    · subst hm; exact absurd h (hctl true)
    by_cases hm2 : m = .ctlFail
    · subst hm2; exact absurd h (hctl false)
    by_cases hv : ∃ f, m = .fault f
    · obtain ⟨f, rfl⟩ := hv
      refine ⟨ms, f, [], rfl, ?_, ?_⟩
      · have h' : (faultStep C (exec C ms) f).phase = .unwinding .noMemory ∨
          (faultStep C (exec C ms) f).phase = .threw .noMemory := h
        rcases fault_phase (C := C) (exec C ms) f with h1 | h1 <;> rw [h1] at h'
        · exact absurd h' (hctl true)
        · rcases h' with h' | h' <;> injection h'
      · by_contra hc
        have h' : (faultStep C (exec C ms) f).phase = .unwinding .noMemory ∨
          (faultStep C (exec C ms) f).phase = .threw .noMemory := h
        simp only [not_or, not_exists] at hc
        rw [fault_quiet C f ⟨hc.1, hc.2.1, hc.2.2.1, hc.2.2.2.2.2, hc.2.2.2.1, hc.2.2.2.2.1⟩] at h'
        exact hctl true h'
    · rcases phase_other (C := C) (s := exec C ms) hm hm2 (fun k hk => hv ⟨k, hk⟩) with h1 | h1 <;>
        rw [h1] at h
      · exact absurd h hb
      · simp at h

/-- in the first portion (after the resumption; after a callback), at the top of the loop, after the end
of a job run by `tick()` itself, in `after_run`, before a coroutine is made: the exception arrives.  A
portion cannot fail after `std::async`, or while a job runs. -/
example : ([[.fault (.memory 0), .ctl], [.fault (.memory 3), .ctl], [.ctl, .fault .memoryBefore, .ctl],
      List.replicate 6 .ctl ++ [.fault (.memory 2), .ctl],
      List.replicate 6 .ctl ++ [.fault (.memory 4), .ctl],
      List.replicate 8 .ctl ++ [.fault .memoryBefore, .ctl]] : List (List Move)).map
        (fun ms => ((exec (Ex.cfg 0) ms).phase, (exec (Ex.cfg 0) ms).trace.length)) =
      [(.threw .noMemory, 1), (.threw .noMemory, 4), (.threw .noMemory, 11), (.threw .noMemory, 17),
       (.threw .noMemory, 19), (.threw .noMemory, 19)] ∧
    (exec (Ex.cfg 0) (List.replicate 6 .ctl ++ [.fault (.memory 1)])).trace =
      (exec (Ex.cfg 0) (List.replicate 7 .ctl)).trace ∧
    (exec (Ex.cfg 2) (List.replicate 6 .ctl ++ [.fault (.memory 1)])).trace =
      (exec (Ex.cfg 2) (List.replicate 7 .ctl)).trace :=
  ⟨by decide +kernel, by decide +kernel, by decide +kernel⟩

/-- no memory for the coroutine of the next task, while the job of the first is on its thread: the
`tick()` waits for it, then the exception arrives; no other job was launched -/
example : (exec (Ex.cfg 2) (List.replicate 9 .ctl)).phase = .pick ∧
    (exec (Ex.cfg 2) (List.replicate 9 .ctl ++ [.fault .memoryBefore, .ctl, .ctl])).phase =
      .unwinding .noMemory ∧
    (exec (Ex.cfg 2) (List.replicate 9 .ctl ++
      [.fault .memoryBefore, .ctl, .begin 1, .ctl, .finish 1, .ctl])).phase = .threw .noMemory ∧
    (exec (Ex.cfg 2) (List.replicate 9 .ctl ++
      [.fault .memoryBefore, .ctl, .begin 1, .ctl, .finish 1, .ctl])).trace =
      (exec (Ex.cfg 2) (List.replicate 9 .ctl)).trace ++ [.jobBegin 1 false, .jobEnd 1] :=
  ⟨by decide +kernel, by decide +kernel, by decide +kernel, by decide +kernel⟩

/-- the hypotheses of `C101_after_call` -/
example : NextEvents (Ex.cfg 0) (List.replicate 6 .ctl)
      ((exec (Ex.cfg 0) (List.replicate 7 .ctl)).trace.drop 14) ∧
    ((exec (Ex.cfg 0) (List.replicate 7 .ctl)).trace.drop 14)[2]? = some (.jobEnd 1) :=
  ⟨by unfold NextEvents; decide +kernel, by decide +kernel⟩

end Joque
