import Verif.Props.Exec3
import Verif.Props.Example

/-! C51: exactly when a task without a job is undefined behaviour. -/

namespace Joque

/-- **C51**, exactly.  The first `tick()` dereferences the job that is not there iff there is no cycle and
among the tasks at lower addresses none has a job whose `is_invalidated` throws.  So an execution with such
a task is reported as an error only by accident: because of a cycle, or because another job, at a lower
address than all tasks without a job, throws when it is asked. -/
theorem C51_exact (C : Cfg) (hwf : C.dag.WF) :
    ((exec C [.ctl]).phase = .ub ↔
      ¬ Cyclic C.dag ∧ ∃ n ∈ C.dag.nodes, C.hasJob n = false ∧
        ∀ m ∈ C.dag.nodes, m < n → C.hasJob m = true → ∃ a, C.ask m = .answer a) ∧
    ((∃ n ∈ C.dag.nodes, C.hasJob n = false) →
      ((∃ e, (exec C [.ctl, .ctl]).phase = .threw e) ↔
        Cyclic C.dag ∨ ∃ m ∈ C.dag.nodes, C.hasJob m = true ∧ (∃ w, C.ask m = .throws w) ∧
          ∀ n ∈ C.dag.nodes, C.hasJob n = false → m < n)) := by
  have htp := toProcessOf_spec C.dag
  have hctl : ∀ e, (prologue C St.init).phase = .unwinding e → (exec C [.ctl, .ctl]).phase = .threw e := by
    intro e hp
    obtain ⟨t1, t2, _⟩ := prologue_todo (C := C)
    show (ctlStep C (prologue C St.init) true).phase = _
    unfold ctlStep
    rw [hp]
    simp [joinable, t1, t2]
  have hub : (prologue C St.init).phase = .ub → ∀ e, (exec C [.ctl, .ctl]).phase ≠ .threw e := by
    intro hp e h
    have : (ctlStep C (prologue C St.init) true).phase = .threw e := h
    unfold ctlStep at this
    rw [hp] at this
    simp [hp] at this
  -- where the loop stops everything before it is in order, and everything after it is at a higher address
  have hord : ∀ pre n post, toProcessOf C.dag = pre ++ n :: post →
      (∀ m ∈ C.dag.nodes, m < n ↔ m ∈ pre) ∧ n ∈ C.dag.nodes := by
    intro pre n post h2
    have hs := htp.1
    rw [h2] at hs
    refine ⟨fun m hm => ⟨fun hlt => ?_, fun hpre => (List.pairwise_append.1 hs).2.2 m hpre n (by simp)⟩,
      (htp.2 n).1 (by rw [h2]; simp)⟩
    have hm' := (htp.2 m).2 hm
    rw [h2] at hm'
    rcases List.mem_append.1 hm' with h | h
    · exact h
    · rcases List.mem_cons.1 h with rfl | h
      · exact absurd hlt (Nat.lt_irrefl _)
      · have := (List.pairwise_append.1 hs).2.1
        rw [List.pairwise_cons] at this
        exact absurd hlt (Nat.not_lt.2 (Nat.le_of_lt (this.1 m h)))
  rcases prologue_spec hwf with ⟨hc, c, _, hp, _⟩ | ⟨hac, hall, hp, _⟩ |
      ⟨hac, pre, n, post, h2, h3, h4, ht, ⟨h5, hp⟩ | ⟨h5, w, h6, hp⟩⟩
  · refine ⟨⟨fun h => ?_, fun h => absurd hc h.1⟩, fun _ => ⟨fun _ => .inl hc, fun _ => ⟨_, hctl _ hp⟩⟩⟩
    rw [show (exec C [.ctl]).phase = (prologue C St.init).phase from rfl, hp] at h; cases h
  · refine ⟨⟨fun h => ?_, ?_⟩, ?_⟩
    · rw [show (exec C [.ctl]).phase = (prologue C St.init).phase from rfl, hp] at h; cases h
    · rintro ⟨_, n, hn, h0, _⟩
      rw [(hall n hn).1] at h0; cases h0
    · rintro ⟨n, hn, h0⟩
      rw [(hall n hn).1] at h0; cases h0
  · obtain ⟨ho, hn⟩ := hord pre n post h2
    refine ⟨⟨fun _ => ⟨hac, n, hn, h5, fun m hm hlt _ => (h3 m ((ho m hm).1 hlt)).2⟩, fun _ => hp⟩,
      fun _ => ⟨fun ⟨e, he⟩ => absurd he (hub hp e), ?_⟩⟩
    rintro (hc | ⟨m, hm, hj, ⟨w, hw⟩, hall⟩)
    · exact absurd hc hac
    · obtain ⟨_, a, ha⟩ := h3 m ((ho m hm).1 (hall n hn h5))
      rw [hw] at ha; cases ha
  · obtain ⟨ho, hn⟩ := hord pre n post h2
    have hlow : ∀ k ∈ C.dag.nodes, C.hasJob k = false → n < k := by
      intro k hk h0
      rcases Nat.lt_trichotomy n k with h | h | h
      · exact h
      · subst h; rw [h5] at h0; cases h0
      · rw [(h3 k ((ho k hk).1 h)).1] at h0; cases h0
    refine ⟨⟨fun h => ?_, ?_⟩, fun _ => ⟨fun _ => .inr ⟨n, hn, h5, ⟨w, h6⟩, hlow⟩, fun _ => ⟨_, hctl _ hp⟩⟩⟩
    · rw [show (exec C [.ctl]).phase = (prologue C St.init).phase from rfl, hp] at h; cases h
    · rintro ⟨_, k, hk, h0, hb⟩
      obtain ⟨a, ha⟩ := hb n hn (hlow k hk h0) h5
      rw [h6] at ha; cases ha

/-- task 4 has no job; when the job of 2 throws it is reported, when that of 5 throws it is not -/
example : (exec { Ex.cfg 2 with hasJob := fun n => n ≠ 4, ask := fun n => if n = 2 then .throws ['x'] else (Ex.cfg 2).ask n }
      [.ctl, .ctl]).phase = .threw (.inval ['x']) ∧
    (exec { Ex.cfg 2 with hasJob := fun n => n ≠ 4, ask := fun n => if n = 5 then .throws ['x'] else (Ex.cfg 2).ask n }
      [.ctl]).phase = .ub := by decide +kernel

end Joque
