import Verif.Proof.RefInv
import Verif.Props.Exec5

/-! # The node handed to `after_run`, and what the times of a record enclose -/

namespace Joque

/-- **C16**, for every `thread_count`: the node handed to `after_run` may be the wrong one, but it
is always a node of the graph, never a dangling reference. -/
theorem C16_real (C : Cfg) (hwf : C.dag.WF) (ms : List Move) {er : ExecRecord} {r : RunRecord}
    {n : Node} (h : .afterRun er r n ∈ (exec C ms).trace) : n ∈ C.dag.nodes :=
  (refInv_exec hwf ms).seen er r n h

example : ∃ er r, r.node = 3 ∧ .afterRun er r 1 ∈ (exec (Ex.par 3) Ex.swapMoves).trace ∧
    1 ∈ (Ex.par 3).dag.nodes :=
  let ⟨er, r, h, h'⟩ := C16_counterexample
  ⟨er, r, h, h', by decide +kernel⟩

/-- **C49**, what the interval of a record encloses: a task that was executed (OK or FAIL) has not
been started at the event `start`, and has ended before the event `end`.  So with a monotone clock
the job's own start and end lie between the two times. -/
theorem C49_covers (C : Cfg) (hwf : C.dag.WF) (ms : List Move) {r : RunRecord}
    (hr : r ∈ recsOf (exec C ms).trace) (hs : r.status = .ok ∨ r.status = .fail) :
    (∀ b i, (exec C ms).trace[i]? = some (.jobBegin r.node b) → r.start ≤ i) ∧
    ∃ i < r.end, (exec C ms).trace[i]? = some (.jobEnd r.node) := by
  have hT := (both_exec hwf ms).2
  rw [hT.recs] at hr
  obtain ⟨_, _, h⟩ := (refInv_exec hwf ms).recs r hr
  obtain ⟨h1, h2⟩ := h hs
  refine ⟨fun b i hi => ?_, ?_⟩
  · by_contra hlt
    apply h1 b
    rw [List.mem_iff_getElem?]
    exact ⟨i, by rw [List.getElem?_take_of_lt (by omega)]; exact hi⟩
  · rw [List.mem_iff_getElem?] at h2
    obtain ⟨i, hi⟩ := h2
    rw [List.getElem?_take] at hi
    split at hi
    · exact ⟨i, ‹_›, hi⟩
    · cases hi

example : ∃ r ∈ recsOf (exec (Ex.cfg 2) Ex.done2).trace, (r.status = .fail ∨
    r.status = .ok) := by decide +kernel

/-- **C05**, root cause: whenever a record is DEPF, a task it transitively requires is FAIL. -/
theorem C05_root (C : Cfg) (hwf : C.dag.WF) (ms : List Move) (rA : RunRecord)
    (hA : rA ∈ recsOf (exec C ms).trace) (hst : rA.status = .depf) :
    ∃ rB ∈ recsOf (exec C ms).trace,
      Relation.TransGen (HasEdge C.dag .requires) rA.node rB.node ∧ rB.status = .fail := by
  have hT := (both_exec hwf ms).2
  have hW := (refInv_exec hwf ms).why
  rw [← hT.recs] at hW
  generalize recsOf (exec C ms).trace = l at *
  have key : ∀ k (pre : List RunRecord) (r : RunRecord) (post : List RunRecord), pre.length < k →
      l = pre ++ r :: post → r.status = .depf →
      ∃ rB ∈ l, Relation.TransGen (HasEdge C.dag .requires) r.node rB.node ∧
        rB.status = .fail := by
    intro k
    induction k with
    | zero => intro _ _ _ h; cases h
    | succ k ih =>
      intro pre r post hk hl hs
      obtain ⟨r2, h1, h2, h3⟩ := hW pre r post hl hs
      rw [badStatus_iff] at h3
      rcases h3 with h3 | h3
      · exact ⟨r2, by rw [hl]; exact List.mem_append_left _ h1, .single h2, h3⟩
      · obtain ⟨p, q, rfl⟩ := List.append_of_mem h1
        obtain ⟨rB, g1, g2, g3⟩ := ih p r2 (q ++ r :: post)
          (by simp only [List.length_append, List.length_cons] at hk; omega)
          (by rw [hl, List.append_assoc, List.cons_append]) h3
        exact ⟨rB, g1, .head h2 g2, g3⟩
  obtain ⟨pre, post, hl⟩ := List.append_of_mem hA
  exact key _ pre rA post (Nat.lt_succ_self _) hl hst

example : ∃ r ∈ recsOf (exec (Ex.cfg 2) Ex.done2).trace, r.status = .depf := by decide +kernel

end Joque
