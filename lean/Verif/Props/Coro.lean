import Verif.Proof.Coro
import Verif.Props.Example

/-! # Properties of `exec_coro` handles (C20, C21) -/

namespace Joque

/-- **C20**, before completion: whatever calls were made before, a handle whose execution has not
completed reports "not done" and an empty result, and asking changes nothing. -/
theorem C20_before (ops : List Op) (w : World) (_ : World.init.runOps ops = some w) (v f : Nat)
    (hv : w.live v = true) (hf : w.h v = some f) (hs : w.frame f = some .susp) :
    w.done v = some false ∧ w.result v = some (.ret none) ∧
    w.step (.result v) = some w ∧ w.step (.done v) = some w := by
  refine ⟨?_, ?_, ?_, ?_⟩ <;> simp [World.step, World.done, World.result, hv, hf, hs, Next.done]

/-- **C20**, after completion: once an execution has returned record `r`, every handle owning it
after any further calls (ticks of other executions, moves, queries, …) reports "done" and yields
exactly `r`, any number of times; likewise for an exception. -/
theorem C20_after (ops ops' : List Op) (w w' : World) (h : World.init.runOps ops = some w)
    (h' : w.runOps ops' = some w') (v f : Nat) (hv : w'.live v = true) (hf : w'.h v = some f) :
    (∀ r, w.frame f = some (.returned r) →
      w'.done v = some true ∧ w'.result v = some (.ret (some r)) ∧ w'.step (.result v) = some w') ∧
    (∀ e, w.frame f = some (.threw e) →
      w'.done v = some true ∧ w'.result v = some (.throws e) ∧ w'.step (.result v) = some w') := by
  have hI := (runOps_inv WInv.init h).1
  obtain ⟨hI', hst, _⟩ := runOps_inv hI h'
  have hnd : f ∉ w'.destroyed := fun hm => by
    have := hI'.owned v f hf
    rw [hI'.gone f hm] at this; cases this
  constructor
  · intro r hr
    have hfr : w'.frame f = some (.returned r) := (hst f _ hr rfl).resolve_right hnd
    simp [World.step, World.done, World.result, hv, hf, hfr, Next.done]
  · intro e hr
    have hfr : w'.frame f = some (.threw e) := (hst f _ hr rfl).resolve_right hnd
    simp [World.step, World.done, World.result, hv, hf, hfr, Next.done]

/-- **C20**, moved-from handles: the new object has what the old one had; `tick` on the old one
does nothing, its `result` is empty and its destruction destroys no coroutine. -/
theorem C20_moved_from (w w1 : World) (v o : Nat) (h : w.step (.moveNew v o) = some w1) :
    w1.h v = w.h o ∧ w1.frame = w.frame ∧
    (∀ n, w1.step (.tick o n) = some w1) ∧
    w1.result o = some (.ret none) ∧
    (∃ w2, w1.step (.destroy o) = some w2 ∧ w2.destroyed = w.destroyed ∧ w2.frame = w.frame ∧
      w2.h v = w.h o) := by
  simp only [World.step, World.moveNew] at h
  split at h
  · rename_i hc
    cases h
    have hne : v ≠ o := by rintro rfl; rw [hc.1] at hc; cases hc.2
    have hl : upd w.live v true o = true := by simp [upd, Ne.symm hne, hc.2]
    refine ⟨?_, rfl, ?_, ?_, ?_⟩
    · simp [upd, hne]
    · intro n; simp [World.step, World.tick, upd, Ne.symm hne, hc.2]
    · simp [World.result, upd, Ne.symm hne, hc.2]
    · simp [World.step, World.destroy, upd, Ne.symm hne, hc.2, hne]
  · cases h

/-- **C20**, move assignment swaps (documented: "Move swaps internal pointers"). -/
theorem C20_move_assign (w w1 : World) (v o : Nat) (h : w.step (.moveAssign v o) = some w1) :
    w1.h v = w.h o ∧ w1.h o = w.h v ∧ w1.frame = w.frame ∧ w1.destroyed = w.destroyed := by
  simp only [World.step, World.moveAssign] at h
  split at h
  · cases h
    refine ⟨?_, ?_, rfl, rfl⟩
    · by_cases hvo : v = o
      · subst hvo; simp [upd]
      · simp [upd, hvo]
    · simp [upd]
  · cases h

/-- **C20**, ownership: over every program, every coroutine frame is destroyed at most once, never
while an object still refers to it, and when all `exec_coro` objects are gone every frame ever
created has been destroyed. -/
theorem C20_ownership (ops : List Op) (w : World) (h : World.init.runOps ops = some w) :
    w.destroyed.Nodup ∧ (∀ v f, w.h v = some f → f ∉ w.destroyed) ∧
    (∀ v v' f, w.h v = some f → w.h v' = some f → v = v') ∧
    ((∀ v, w.live v = false) → ∀ f, f ∈ w.destroyed ↔ f < w.fresh) := by
  have hI := (runOps_inv WInv.init h).1
  refine ⟨hI.once, ?_, hI.inj, ?_⟩
  · intro v f hf hm
    have := hI.owned v f hf
    rw [hI.gone f hm] at this; cases this
  · intro hl f
    refine ⟨fun hm => hI.fresh f (.inr hm), fun hlt => ?_⟩
    rcases hI.all f hlt with hs | hm
    · obtain ⟨v, hv⟩ := hI.noLeak f hs
      rw [hI.dead v (hl v)] at hv; cases hv
    · exact hm

/-- what `result()` gives for a completed frame -/
def Next.res : Next → ResultOut
  | .susp => .ret none
  | .returned r => .ret (some r)
  | .threw e => .throws e

theorem run_done {w : World} {v f : Nat} {x : Next} (hv : w.live v = true) (hf : w.h v = some f)
    (hs : w.frame f = some x) (hx : x.done = true) (ns : List Next) :
    w.run v ns = .returns w x.res := by
  cases x with
  | susp => cases hx
  | returned r =>
    cases ns <;> simp [World.run, World.done, World.result, hv, hf, hs, Next.done, Next.res]
  | threw r =>
    cases ns <;> simp [World.run, World.done, World.result, hv, hf, hs, Next.done, Next.res]

theorem run_susp {w : World} {v f : Nat} (hv : w.live v = true) (hf : w.h v = some f)
    (hs : w.frame f = some .susp) (n : Next) (ns : List Next) :
    w.run v (n :: ns) = ({ w with frame := upd w.frame f (some n) } : World).run v ns := by
  simp [World.run, World.done, World.result, World.tick, hv, hf, hs, Next.done]

/-- **C20**, `run()`: it resumes the execution until it is done – `k` times without completing,
then once more – and returns what `result()` returns; on a completed execution it resumes
nothing. -/
theorem C20_run (w : World) (v f : Nat) (hv : w.live v = true) (hf : w.h v = some f) (k : Nat)
    (x : Next) (hx : x.done = true) (rest : List Next) :
    (w.frame f = some .susp →
      ∃ w', w.run v (List.replicate k .susp ++ x :: rest) = .returns w' x.res ∧
        w'.frame f = some x ∧ w'.result v = some x.res ∧ (∀ g, g ≠ f → w'.frame g = w.frame g) ∧
        (∃ w'', w.run v (List.replicate k .susp) = .blocked w'')) ∧
    (w.frame f = some x → w.run v rest = .returns w x.res) := by
  refine ⟨?_, fun hs => run_done hv hf hs hx rest⟩
  induction k generalizing w with
  | zero =>
    intro hs
    refine ⟨{ w with frame := upd w.frame f (some x) }, ?_, ?_, ?_, ?_, w, ?_⟩
    · rw [List.replicate_zero, List.nil_append, run_susp hv hf hs]
      exact run_done (w := { w with frame := upd w.frame f (some x) }) hv hf (upd_same _ _ _) hx rest
    · simp [upd]
    · cases x <;> simp [World.result, hv, hf, upd, Next.res]
    · intro g hg; simp [upd, hg]
    · simp [World.run, World.done, World.result, hv, hf, hs, Next.done]
  | succ k ih =>
    intro hs
    obtain ⟨w', h1, h2, h3, h4, w'', h5⟩ :=
      ih { w with frame := upd w.frame f (some .susp) } hv hf (upd_same _ _ _)
    refine ⟨w', ?_, h2, h3, ?_, w'', ?_⟩
    · rw [List.replicate_succ, List.cons_append, run_susp hv hf hs]; exact h1
    · intro g hg; rw [h4 g hg]; exact upd_other _ _ hg
    · rw [List.replicate_succ, run_susp hv hf hs]; exact h5

/-- **C20**, the record an execution ended with does not change any more, whatever the worker
threads or the owner do (short of resuming it). -/
theorem C20_record_stable (C : Cfg) (ms ms' : List Move) (hf : (exec C ms).phase = .finished)
    (hno : ∀ m ∈ ms', m ≠ .ctl ∧ m ≠ .ctlFail ∧ (∀ f, m ≠ .fault f) ∧ m ≠ .destroy) :
    (exec C (ms ++ ms')).phase = .finished ∧ (exec C (ms ++ ms')).erec = (exec C ms).erec := by
  have : ∀ ms' : List Move, ∀ s : St, s.phase = .finished →
      (∀ m ∈ ms', m ≠ .ctl ∧ m ≠ .ctlFail ∧ (∀ f, m ≠ .fault f) ∧ m ≠ .destroy) →
      (ms'.foldl (step C) s).phase = .finished ∧ (ms'.foldl (step C) s).erec = s.erec := by
    intro ms'
    induction ms' with
    | nil => intro s h _; exact ⟨h, rfl⟩
    | cons m ms' ih =>
      intro s h hn
      have hm := hn m List.mem_cons_self
      have hs : (step C s m).phase = .finished ∧ (step C s m).erec = s.erec := by
        cases m with
        | ctl => exact absurd rfl hm.1
        | ctlFail => exact absurd rfl hm.2.1
        | fault f => exact absurd rfl (hm.2.2.1 f)
        | destroy => exact absurd rfl hm.2.2.2
        | begin n => simp only [step, h]; split <;> (try split) <;> simp_all [St.emit]
        | finish n => simp only [step, h]; split <;> (try split) <;> simp_all [St.emit]
      obtain ⟨h1, h2⟩ := ih _ hs.1 (fun m hm => hn m (List.mem_cons_of_mem _ hm))
      exact ⟨h1, h2.trans hs.2⟩
  have h := this ms' (exec C ms) hf hno
  unfold exec at h ⊢
  rw [List.foldl_append]
  exact h

/-- **C20**.  After its destructor an object is gone: every use of it is undefined behaviour, other
objects are as they were, and its place can be used for a new one. -/
theorem C20_destroyed (w w1 : World) (v : Nat) (h : w.step (.destroy v) = some w1) :
    (∀ n, w1.step (.tick v n) = none) ∧ w1.step (.done v) = none ∧ w1.step (.result v) = none ∧
    (∀ ns, w1.step (.run v ns) = none) ∧ w1.step (.destroy v) = none ∧
    (∀ o, w1.step (.moveNew o v) = none ∧ w1.step (.moveAssign o v) = none ∧
      w1.step (.moveAssign v o) = none) ∧
    w1.step (.create v) ≠ none ∧
    ∀ o, o ≠ v → w1.live o = w.live o ∧ w1.h o = w.h o := by
  have hl : w1.live v = false ∧ ∀ o, o ≠ v → w1.live o = w.live o ∧ w1.h o = w.h o := by
    simp only [World.step, World.destroy] at h
    split at h
    · split at h
      · cases h
        exact ⟨upd_same _ _ _, fun o ho => ⟨upd_other _ _ ho, rfl⟩⟩
      · split at h
        · cases h
        · cases h
          exact ⟨upd_same _ _ _, fun o ho => ⟨upd_other _ _ ho, upd_other _ _ ho⟩⟩
    · cases h
  refine ⟨?_, ?_, ?_, ?_, ?_, ?_, ?_, hl.2⟩
  · intro n; simp [World.step, World.tick, hl.1]
  · simp [World.step, World.done, hl.1]
  · simp [World.step, World.result, hl.1]
  · intro ns; cases ns <;> simp [World.step, World.run, World.done, World.result, hl.1]
  · simp [World.step, World.destroy, hl.1]
  · intro o; simp [World.step, World.moveNew, World.moveAssign, hl.1]
  · simp [World.step, World.create, hl.1]

/-- **C20**, the first call of a program can only be the creation of an object. -/
theorem C20_first (op : Op) : World.init.step op ≠ none ↔ ∃ v, op = .create v := by
  cases op with
  | create v => simp [World.step, World.create, World.init]
  | run v ns => cases ns <;> simp [World.step, World.run, World.done, World.result, World.init]
  | _ => simp [World.step, World.tick, World.moveNew, World.moveAssign, World.done, World.result,
      World.destroy, World.init]

/-- a program that meets the hypotheses: two executions, moves, completion, queries -/
example : ∃ w, World.init.runOps [.create 0, .create 1, .tick 0 .susp, .result 0, .moveNew 2 0,
    .tick 0 .susp, .moveAssign 1 2, .run 1 [.susp, .returned ExecRecord.init], .result 1, .result 1,
    .done 1, .destroy 0] = some w ∧ w.live 1 = true ∧ w.h 1 = some 0 ∧
    w.frame 0 = some (.returned ExecRecord.init) ∧ w.frame 1 = some .susp ∧ w.h 2 = some 1 := by
  refine ⟨_, rfl, ?_⟩
  decide

/-- **C21** is false: `tick()` on a finished execution resumes a coroutine suspended at its final
suspension point, which is undefined behaviour (the documentation says it does nothing). -/
theorem C21_counterexample :
    (∃ w, World.init.runOps [.create 0, .tick 0 (.returned ExecRecord.init)] = some w ∧
      w.done 0 = some true) ∧
    World.init.runOps [.create 0, .tick 0 (.returned ExecRecord.init), .tick 0 .susp] = none := by
  refine ⟨⟨_, rfl, ?_⟩, ?_⟩ <;> decide

/-- It happens for every finished execution, however it ended. -/
theorem C21_always_ub (w : World) (v f : Nat) (x nxt : Next) (hf : w.h v = some f)
    (hs : w.frame f = some x) (hx : x.done = true) : w.step (.tick v nxt) = none := by
  cases x with
  | susp => cases hx
  | returned r => simp [World.step, World.tick, hf, hs]
  | threw e => simp [World.step, World.tick, hf, hs]

/-- … and for every execution of the engine. -/
theorem C21_always_ub_exec (C : Cfg) (ms : List Move)
    (hf : (exec C ms).phase = .finished ∨ ∃ e, (exec C ms).phase = .threw e) :
    (exec C (ms ++ [.ctl])).phase = .ub := by
  unfold exec at hf ⊢
  rw [List.foldl_append]
  rcases hf with hf | ⟨e, hf⟩ <;> simp [step, ctlStep, hf]

/-- What remains true of **C21**: on a handle without a coroutine `tick()` does nothing, and
`run()` never makes the mistake – it checks `done()` before every tick. -/
theorem C21_partial (ops : List Op) (w : World) (hr : World.init.runOps ops = some w) (v : Nat)
    (hv : w.live v = true) (nxt : Next) (ns : List Next) :
    (w.h v = none → w.step (.tick v nxt) = some w) ∧
    (w.h v ≠ none → w.step (.run v ns) ≠ none) := by
  constructor
  · intro h; simp [World.step, World.tick, hv, h]
  · have hI := (runOps_inv WInv.init hr).1
    clear hr nxt
    induction ns generalizing w with
    | nil =>
      intro h
      cases hf : w.h v with
      | none => exact absurd hf h
      | some f =>
        have := hI.owned v f hf
        cases hs : w.frame f with
        | none => rw [hs] at this; cases this
        | some x =>
          cases x <;> simp [World.step, World.run, World.done, World.result, hv, hf, hs, Next.done]
    | cons n ns ih =>
      intro h
      cases hf : w.h v with
      | none => exact absurd hf h
      | some f =>
        have := hI.owned v f hf
        cases hs : w.frame f with
        | none => rw [hs] at this; cases this
        | some x =>
          cases x with
          | returned r =>
            simp [World.step, World.run, World.done, World.result, hv, hf, hs, Next.done]
          | threw r =>
            simp [World.step, World.run, World.done, World.result, hv, hf, hs, Next.done]
          | susp =>
            have ht : w.tick v n = some { w with frame := upd w.frame f (some n) } := by
              simp [World.tick, hv, hf, hs]
            have := ih { w with frame := upd w.frame f (some n) } hv (tick_inv hI ht).1 (by simp [hf])
            simp only [World.step] at this ⊢
            rw [run_susp hv hf hs]
            exact this

end Joque
