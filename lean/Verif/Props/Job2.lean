import Verif.Props.Job
import Verif.Props.Exec4

/-! # C17, exactly -/

namespace Joque

/-- **C17**, exactly.  In an execution that ran to its end, a task whose job was begun and throws has
the record it should have, and its job is not a callable with the default traits that throws a
`std::exception`: executions in which such a job is begun never run to their end. -/
theorem C17_exact (g : Dag) (res : Node → List Res) (job : Node → Option Job)
    (tc : Nat) (hwf : g.WF) (ms : List Move)
    (hfin : (exec (Cfg.ofJobs g res job tc) ms).phase = .finished) (n : Node)
    (hb : JobBegan (exec (Cfg.ofJobs g res job tc) ms).trace n)
    (j : Job) (hj : job n = some j) (ht : j.Throws) :
    ¬ j.DefaultStd ∧ ∃ r ∈ (exec (Cfg.ofJobs g res job tc) ms).erec.runs, r.node = n ∧
      r.status = .fail ∧ r.retcode = 1 ∧ ∃ c, r.output = [c] ∧ c.type = .error := by
  have hT := tinv_exec (C := Cfg.ofJobs g res job tc) hwf ms
  obtain ⟨b, hb⟩ := hb
  obtain ⟨pre, post, htr⟩ := List.append_of_mem hb
  have hn := (C02_at_most_once _ hwf ms pre post n b htr).1
  obtain ⟨hperm, -, -⟩ := C02_one_record _ hwf ms hfin
  obtain ⟨r, hr, rfl⟩ := List.mem_map.1 (hperm.mem_iff.2 hn)
  have hst := (began_of_status hT hr).1.1 ⟨b, hb⟩
  have hr' := hr
  rw [← hT.recs] at hr'
  have h1 : r.status ≠ .depf := by rcases hst with h | h <;> rw [h] <;> simp
  have h2 : r.status ≠ .skip := by rcases hst with h | h <;> rw [h] <;> simp
  have hd : ¬ j.DefaultStd := fun hd => h1 (C17_default_std g res job tc hwf ms r hr' j hj hd)
  exact ⟨hd, r, hr, rfl, C17_partial g res job tc hwf ms r hr' j hj ht hd h1 h2⟩

/-- such an execution -/
example : (exec (Ex.throwCfg (.callable .throwsOther)) (List.replicate 21 .ctl)).phase = .finished ∧
    JobBegan (exec (Ex.throwCfg (.callable .throwsOther)) (List.replicate 21 .ctl)).trace 1 ∧
    (Job.callable .throwsOther).Throws :=
  ⟨by decide +kernel, ⟨true, by decide +kernel⟩, .inr rfl⟩

end Joque
