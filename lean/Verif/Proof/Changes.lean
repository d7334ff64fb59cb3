import Verif.Spec.Changes
import Verif.Proof.ExecInv5
import Verif.Proof.Fair

/-! # Changing resources: the invariant -/

namespace Joque

variable {C : Cfg}

theorem Inv.handle_undone {s : St} (hI : Inv C s) {h : Handle} (hm : h ∈ handles s) :
    s.flags.done h.node = false := by
  cases hd : s.flags.done h.node with
  | false => rfl
  | true =>
    have h1 := (hI.doneIff _).1 hd
    have h2 := hI.nodup
    unfold allNodes at h2
    rw [List.nodup_append] at h2
    have h3 := h2.1
    rw [List.nodup_append] at h3
    exact absurd rfl (h3.2.2 _ (List.mem_map_of_mem hm) _ h1)

theorem Inv.change {s : St} {R R' : Node → List Res} (hI : Inv (C.withRes R) s)
    (hact : s.phase.active = true) (hr : Respects C s R R') : Inv (C.withRes R') s := by
  have hin : ∀ h ∈ handles s, h.node ∈ C.dag.nodes := fun h hm => hI.inNodes _ (by
    unfold allNodes; simp only [List.mem_append]
    exact .inl (.inl (List.mem_map_of_mem hm)))
  have hprog : ∀ h ∈ handles s, h.launched = true → InProgress s h.node := fun h hm hl =>
    ⟨(hI.launched h hm hl).1, hI.handle_undone hm⟩
  have hkeep : ∀ h ∈ handles s, h.launched = true → ∀ r, r ∈ R' h.node ↔ r ∈ R h.node :=
    fun h hm hl => (hr _ (hin h hm)).1 (hprog h hm hl)
  have hnub : s.phase ≠ .ub := by intro h; rw [h] at hact; cases hact
  exact
    { createdInit := hI.createdInit
      noAbort := hI.noAbort
      noFuel := hI.noFuel
      tpSorted := hI.tpSorted
      nodup := hI.nodup
      inNodes := hI.inNodes
      part := hI.part
      doneIff := hI.doneIff
      failedIff := hI.failedIff
      tpIdle := hI.tpIdle
      launched := by
        intro h hm hl
        obtain ⟨a1, a2, a3, a4, a5, a6, a7⟩ := hI.launched h hm hl
        exact ⟨a1, a2, a3, a4, fun r hr => a5 r ((hkeep h hm hl r).1 hr), a6, a7⟩
      fresh := by
        intro _ h hm hl
        obtain ⟨a1, a2, a3⟩ := hI.fresh hnub h hm hl
        refine ⟨a1, a2, fun r hx hu => ?_⟩
        rcases (hr _ (hin h hm)).2 a1 (hI.handle_undone hm) r hx with h1 | h1
        · exact a3 r h1 hu
        · obtain ⟨h', hm', hl', hx'⟩ := hI.usedSub hact r hu
          exact h1 _ (hprog h' hm' hl') hx'
      preds := hI.preds
      workerOnly := hI.workerOnly
      seq := hI.seq
      usedSub := by
        intro _ r hu
        obtain ⟨h', hm', hl', hx'⟩ := hI.usedSub hact r hu
        exact ⟨h', hm', hl', (hkeep h' hm' hl' r).2 hx'⟩
      excl := by
        intro h1 m1 h2 m2 l1 l2 hne r x1 x2
        exact hI.excl h1 m1 h2 m2 l1 l2 hne r ((hkeep h1 m1 l1 r).1 x1) ((hkeep h2 m2 l2 r).1 x2)
      lastFresh := hI.lastFresh
      keptLaunched := hI.keptLaunched
      pickLaunched := hI.pickLaunched
      cap := hI.cap
      cap0 := hI.cap0
      passedLen := hI.passedLen
      notClean := hI.notClean
      recs := fun r hr => 
        { t := (hI.recs r hr).t, name := (hI.recs r hr).name, times := (hI.recs r hr).times
          preds := (hI.recs r hr).preds, predTimes := (hI.recs r hr).predTimes
          noFail := (hI.recs r hr).noFail, depf := (hI.recs r hr).depf
          skip := (hI.recs r hr).skip, ran := (hI.recs r hr).ran }
      stats := hI.stats
      total := hI.total
      inval := hI.inval
      invalActive := hI.invalActive
      acyc := hI.acyc
      answers := hI.answers
      drain := hI.drain
      finishedEmpty := hI.finishedEmpty
      tpNonempty := hI.tpNonempty }

/-- an execution that is over: resources are not looked at any more -/
theorem step_over (R R' : Node → List Res) (s : St) (m : Move) (ha : s.phase.active = false)
    (hc : s.phase ≠ .created) :
    step (C.withRes R) s m = step (C.withRes R') s m ∧
    (step (C.withRes R) s m).phase.active = false ∧ (step (C.withRes R) s m).phase ≠ .created := by
  have hctl : ∀ b, ctlStep (C.withRes R) s b = ctlStep (C.withRes R') s b ∧
      (ctlStep (C.withRes R) s b).phase.active = false ∧ (ctlStep (C.withRes R) s b).phase ≠ .created ∧
      (ctlStep (C.withRes R) s b).trace = s.trace := by
    intro b
    unfold ctlStep
    cases hp : s.phase <;> rw [hp] at ha hc <;> first | (cases ha; done) | (exact absurd rfl hc) | skip
    all_goals dsimp only
    all_goals first
      | exact ⟨rfl, by rw [hp]; rfl, by rw [hp]; simp, rfl⟩
      | exact ⟨rfl, rfl, by simp, rfl⟩
      | (split
         · exact ⟨rfl, rfl, by simp, rfl⟩
         · exact ⟨rfl, by rw [hp]; rfl, by rw [hp]; simp, rfl⟩)
  have hthrow : ∀ R f k, throwStep (C.withRes R) s f k = ctlStep (C.withRes R) s true ∨
      (ctlStep (C.withRes R) s true).trace ≠ s.trace := by
    intro R f k
    by_cases h : (ctlStep (C.withRes R) s true).trace = s.trace
    · left
      unfold throwStep
      dsimp only
      rw [h, List.getElem?_eq_none (by omega)]
    · exact .inr h
  have hct' : (ctlStep (C.withRes R') s true).trace = s.trace := by
    rw [← (hctl true).1]; exact (hctl true).2.2.2
  have hth : ∀ f k, throwStep (C.withRes R) s f k = throwStep (C.withRes R') s f k ∧
      (throwStep (C.withRes R) s f k).phase.active = false ∧
      (throwStep (C.withRes R) s f k).phase ≠ .created := by
    intro f k
    have h1 := (hthrow R f k).resolve_right (fun h => h (hctl true).2.2.2)
    have h2 := (hthrow R' f k).resolve_right (fun h => h hct')
    rw [h1, h2]
    exact ⟨(hctl true).1, (hctl true).2.1, (hctl true).2.2.1⟩
  cases m with
  | ctl => exact ⟨(hctl true).1, (hctl true).2.1, (hctl true).2.2.1⟩
  | ctlFail => exact ⟨(hctl false).1, (hctl false).2.1, (hctl false).2.2.1⟩
  | fault f =>
    cases f with
    | visitor k => exact hth _ _
    | memory k => exact hth _ _
    | memoryBefore =>
      simp only [step, faultStep]
      cases hp : s.phase <;> rw [hp] at ha hc <;> first | (cases ha; done) | (exact absurd rfl hc) | skip
      all_goals exact ⟨(hctl true).1, (hctl true).2.1, (hctl true).2.2.1⟩
  | begin n =>
    refine ⟨rfl, ?_⟩
    have : (step (C.withRes R) s (.begin n)).phase = s.phase := by
      simp only [step]; split
      · rfl
      · split <;> rfl
    rw [this]; exact ⟨ha, hc⟩
  | finish n =>
    refine ⟨rfl, ?_⟩
    have : (step (C.withRes R) s (.finish n)).phase = s.phase := by
      simp only [step]; split
      · rfl
      · split <;> rfl
    rw [this]; exact ⟨ha, hc⟩
  | destroy =>
    refine ⟨rfl, ?_⟩
    show (destroyStep s).phase.active = false ∧ (destroyStep s).phase ≠ .created
    unfold destroyStep
    split
    · exact ⟨rfl, by simp⟩
    · exact ⟨rfl, by simp⟩
    · exact ⟨rfl, by simp⟩
    · exact ⟨rfl, by simp⟩
    · exact ⟨ha, hc⟩

/-- the engine's invariant for some lists; for the present ones while the execution is in progress -/
def ChInv (C : Cfg) (R : Node → List Res) (s : St) : Prop :=
  ∃ R0, Inv (C.withRes R0) s ∧ (s.phase.active = true → R0 = R)

theorem ChInv.step {R R' : Node → List Res} {s : St} (hwf : C.dag.WF) (h : ChInv C R s)
    (hr : Respects C s R R') (m : Move) : ChInv C R' (step (C.withRes R') s m) := by
  obtain ⟨R0, hI, he⟩ := h
  by_cases ha : s.phase.active = true
  · have := he ha
    subst this
    exact ⟨R', inv_step (C := C.withRes R') hwf (hI.change ha hr) m, fun _ => rfl⟩
  · have ha : s.phase.active = false := by simpa using ha
    by_cases hc : s.phase = .created
    · rw [hI.createdInit hc]
      exact ⟨R', inv_step (C := C.withRes R') hwf (inv_init _) m, fun _ => rfl⟩
    · obtain ⟨h1, h2, _⟩ := step_over (C := C) R0 R' s m ha hc
      rw [← h1]
      exact ⟨R0, inv_step (C := C.withRes R0) hwf hI m, fun h => by rw [h2] at h; cases h⟩

theorem execCh_snoc (C : Cfg) (l : List ((Node → List Res) × Move)) (p : (Node → List Res) × Move) :
    execCh C (l ++ [p]) = step (C.withRes p.1) (execCh C l) p.2 := by
  unfold execCh; rw [List.foldl_append]; rfl

theorem CarefulCh.left {l : List ((Node → List Res) × Move)} {p : (Node → List Res) × Move}
    (h : CarefulCh C (l ++ [p])) : CarefulCh C l := by
  intro pre R m post he
  exact h pre R m (post ++ [p]) (by rw [he]; simp)

theorem chinv_exec (hwf : C.dag.WF) (l : List ((Node → List Res) × Move)) (hc : CarefulCh C l) :
    ChInv C (listed C l) (execCh C l) := by
  induction l using List.reverseRecOn with
  | nil => exact ⟨C.resources, inv_init _, fun _ => rfl⟩
  | append_singleton l p ih =>
    have h1 := ih hc.left
    have h2 := hc l p.1 p.2 [] rfl
    rw [execCh_snoc]
    have h3 : listed C (l ++ [p]) = p.1 := by unfold listed; rw [List.getLast?_concat]
    rw [h3]
    exact h1.step hwf h2 p.2

end Joque
