import Verif.Props.Throw

/-! # When an exception is delivered and when a destructor returns -/

namespace Joque

variable {C : Cfg}

/-- Every job handed to a thread has ended. -/
def AllEnded (tr : List Event) : Prop := ∀ n, Event.launch n ∈ tr → JobEnded tr n

theorem joinable_iff (hwf : C.dag.WF) (ms : List Move) (hu : (exec C ms).phase ≠ .ub) :
    joinable (exec C ms) = true ↔ AllEnded (exec C ms).trace := by
  obtain ⟨hI, hT⟩ := both_exec hwf ms
  have hW := wl_exec (C := C) ms
  generalize exec C ms = s at *
  rw [joinable, List.all_eq_true]
  constructor
  · intro h n hn
    have hl := launch_mem_life.1 hn
    rw [end_mem_life]
    by_cases hin : n ∈ allNodes s
    · unfold allNodes at hin
      simp only [List.mem_append] at hin
      rcases hin with (hin | hin) | hin
      · obtain ⟨x, hx, rfl⟩ := List.mem_map.1 hin
        cases hlx : x.launched with
        | true =>
          have hw : s.worker x.node = .finished := by
            have h1 := h x hx
            have h2 := (hI.launched x hx hlx).2.1
            simpa [h2] using h1
          rcases hT.lifeLaunched x hx hlx with h3 | ⟨_, _, h3⟩
          · rw [h3, hw]; simp [workerLife]
          · rw [h3]; simp [workerLife]
        | false =>
          rcases hT.lifeFresh x hx hlx with h3 | ⟨_, h3 | ⟨_, h3 | h3⟩⟩ <;> rw [h3] at hl <;>
            simp at hl
      · obtain ⟨r, hr, rfl⟩ := List.mem_map.1 hin
        have h3 := hT.lifeRec r hr
        rw [h3] at hl ⊢
        revert hl
        cases r.status <;> simp [recLife] <;> split <;> simp
      · rw [hT.lifeTp n hin] at hl; cases hl
    · rcases hT.lifeOther n hin with h3 | ⟨_, h3⟩ <;> rw [h3] at hl <;> simp at hl
  · intro h x hx
    cases hlx : x.launched with
    | true =>
      have h2 := (hI.launched x hx hlx).2.1
      have he := (end_mem_life.1 (h x.node (hW _ h2)))
      have : s.worker x.node = .finished := by
        rcases hT.lifeLaunched x hx hlx with h3 | ⟨_, h3, _⟩
        · rw [h3] at he
          revert he h2
          cases s.worker x.node <;> simp [workerLife]
        · exact h3
      simp [this]
    | false => simp [(hI.fresh hu x hx hlx).2.1]

/-- **C18**, part 6.  Exactly when the exception is delivered: an execution being left by an
exception ends with it at the next chance of the control thread iff every job that was ever handed
to a thread has ended; until then the control thread waits, and nothing else changes. -/
theorem C18_delivery_exact (C : Cfg) (hwf : C.dag.WF) (ms : List Move) (e : Exc)
    (hp : (exec C ms).phase = .unwinding e) :
    (AllEnded (exec C ms).trace → (exec C (ms ++ [.ctl])).phase = .threw e) ∧
    (¬ AllEnded (exec C ms).trace → exec C (ms ++ [.ctl]) = exec C ms) := by
  have hj := joinable_iff hwf ms (by rw [hp]; simp)
  rw [exec_append]
  simp only [List.foldl, step, ctlStep, hp]
  rw [← hj]
  exact ⟨fun h => by rw [if_pos h], fun h => by rw [if_neg h]⟩

/-- **C19**.  Exactly when the destructor returns: at the next chance of the control thread iff
every job that was ever handed to a thread has ended; until then it waits. -/
theorem C19_return_exact (C : Cfg) (hwf : C.dag.WF) (ms : List Move)
    (hp : (exec C ms).phase = .destroying) :
    (AllEnded (exec C ms).trace → (exec C (ms ++ [.ctl])).phase = .destroyed) ∧
    (¬ AllEnded (exec C ms).trace → exec C (ms ++ [.ctl]) = exec C ms) := by
  have hj := joinable_iff hwf ms (by rw [hp]; simp)
  rw [exec_append]
  simp only [List.foldl, step, ctlStep, hp]
  rw [← hj]
  exact ⟨fun h => by rw [if_pos h], fun h => by rw [if_neg h]⟩

/-- the workers do not change what the control thread is doing -/
theorem workers_phase {p : Phase} : ∀ (ms : List Move), (∀ m ∈ ms, ∃ n, m = .begin n ∨ m = .finish n) →
    ∀ s : St, s.phase = p → (ms.foldl (step C) s).phase = p
  | [], _, _, h => h
  | m :: ms, hm, s, h => by
    refine workers_phase ms (fun x hx => hm x (List.mem_cons_of_mem _ hx)) _ ?_
    obtain ⟨n, rfl | rfl⟩ := hm m List.mem_cons_self <;> simp only [step] <;> split <;>
      (try split) <;> exact h

/-- **C64**, part 3, exactly: `result()` throws the visitor's exception at the next chance of the
control thread iff every job that was ever handed to a thread has ended, whatever the workers did
since the callback threw. -/
theorem C64_delivery_exact (C : Cfg) (hwf : C.dag.WF) (ms ms' : List Move)
    (hp : (exec C ms).phase = .unwinding .visitor)
    (hw : ∀ m ∈ ms', ∃ n, m = .begin n ∨ m = .finish n) :
    (exec C (ms ++ ms' ++ [.ctl])).phase = .threw .visitor ↔
      AllEnded (exec C (ms ++ ms')).trace := by
  have hp' : (exec C (ms ++ ms')).phase = .unwinding .visitor := by
    rw [exec_append]
    refine workers_phase ms' hw (exec C ms) hp
  obtain ⟨h1, h2⟩ := C18_delivery_exact C hwf (ms ++ ms') .visitor hp'
  refine ⟨fun h => ?_, h1⟩
  by_contra hn
  rw [h2 hn, hp'] at h
  cases h

/-- the destructor is held back while jobs 1 and 3 are executing, and returns when they have ended -/
example : ∃ ms, (exec (Ex.par 3) ms).phase = .destroying ∧ ¬ AllEnded (exec (Ex.par 3) ms).trace ∧
    (exec (Ex.par 3) (ms ++ [.finish 1, .finish 3, .ctl])).phase = .destroyed := by
  refine ⟨List.replicate 23 .ctl ++ [.begin 1, .begin 3, .destroy, .ctl], by decide +kernel, ?_,
    by decide +kernel⟩
  intro h
  have := h 1 (by decide +kernel)
  revert this
  unfold JobEnded
  decide +kernel

end Joque
