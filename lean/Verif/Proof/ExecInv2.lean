import Verif.Proof.ExecInv

namespace Joque

theorem setFlag_true {f : Node → Bool} {n m : Node} :
    setFlag f n m = true ↔ m = n ∨ f m = true := by
  unfold setFlag; split <;> simp [*]

theorem setFlag_other {f : Node → Bool} {n m : Node} (h : m ≠ n) : setFlag f n m = f m := by
  simp [setFlag, h]

theorem stats_incr (st : Stats) (a b : Status) :
    (st.incr a).get b = st.get b + if a = b then 1 else 0 := by
  cases a <;> cases b <;> simp [Stats.incr, Stats.get]

/-- The first element of `todo` ends and is recorded. -/
theorem Inv.complete {C : Cfg} {s s' : St} (hI : Inv C s) {d : Bool} (hp : s.phase = .clean d)
    {sl : Slot} {rest : List Slot} (ht : s.todo = sl :: rest) {r : RunRecord}
    (hrn : r.node = sl.h.node)
    (e0 : s'.phase = s.phase) (e1 : s'.toProcess = s.toProcess)
    (e2 : s'.flags.inval = s.flags.inval)
    (e3 : s'.flags.done = setFlag s.flags.done sl.h.node)
    (e4 : s'.flags.failed = if badStatus r.status then setFlag s.flags.failed sl.h.node
      else s.flags.failed)
    (e5 : ∀ m, m ≠ sl.h.node → s'.flags.started m = s.flags.started m)
    (e6 : ∀ x, x ∈ s'.used ↔ x ∈ s.used ∧ x ∉ C.resources sl.h.node)
    (e7 : s'.todo = rest) (e8 : s'.kept = s.kept) (e9 : s'.passed = s.passed ++ [sl.ref])
    (e10 : s'.worker = s.worker) (e11 : s'.erec = s.erec.push r)
    (e12 : s.trace.length ≤ s'.trace.length)
    (hw : s.worker sl.h.node = .idle ∨ s.worker sl.h.node = .finished)
    (hr1 : r.t = C.dag.task r.node) (hr2 : r.name = C.dag.name r.node)
    (hr3 : r.start ≤ r.end ∧ r.end ≤ s'.trace.length)
    (hr4 : ∀ r2 ∈ s.erec.runs, AfterEdge C.dag r.node r2.node → r2.end ≤ r.start)
    (hr5 : r.status ≠ .depf → ∀ m, HasEdge C.dag .requires r.node m → AfterEdge C.dag r.node m →
      s.flags.failed m = false)
    (hr6 : r.status = .depf → r.retcode = 0 ∧ r.output = [] ∧
      ∃ m, HasEdge C.dag .requires r.node m ∧ s.flags.failed m = true)
    (hr7 : r.status = .skip → r.retcode = 0 ∧ r.output = [] ∧ s.flags.inval r.node = .valid)
    (hr8 : r.status = .ok ∨ r.status = .fail →
      s.flags.inval r.node = .invalid ∧
      (asyncLambda (C.outcome r.node)).retcode = some r.retcode ∧
      r.output = (asyncLambda (C.outcome r.node)).output ∧
      (r.status = .fail ↔ r.retcode ≠ 0)) :
    Inv C s' := by
  have hact : s.phase.active = true := by rw [hp]; rfl
  have hh : handles s = s.kept ++ sl.h :: rest.map Slot.h := by simp [handles, ht]
  have hh' : handles s' = s.kept ++ rest.map Slot.h := by simp [handles, e7, e8]
  have hmem : sl.h ∈ handles s := by rw [hh]; simp
  have hsub : ∀ h ∈ handles s', h ∈ handles s := by
    intro h hm; rw [hh'] at hm; rw [hh]
    rcases List.mem_append.1 hm with h1 | h1
    · exact List.mem_append_left _ h1
    · exact List.mem_append_right _ (List.mem_cons_of_mem _ h1)
  have hrr : recNodes s' = recNodes s ++ [sl.h.node] := by
    simp [recNodes, e11, ExecRecord.push, hrn]
  have hperm : (allNodes s').Perm (allNodes s) := by
    unfold allNodes
    rw [hh', hh, hrr, e1]
    apply List.Perm.append_right
    simp only [List.map_append, List.map_cons]
    generalize s.kept.map Handle.node = A
    generalize (rest.map Slot.h).map Handle.node = B
    generalize recNodes s = D
    generalize sl.h.node = n
    have h1 : (A ++ B ++ (D ++ [n])).Perm (n :: (A ++ B ++ D)) := by
      rw [← List.append_assoc]; exact List.perm_append_singleton n _
    have h2 : (A ++ n :: B ++ D).Perm (n :: (A ++ B ++ D)) := by
      rw [List.append_assoc, List.append_assoc]
      exact List.perm_middle
    exact h1.trans h2.symm
  have hnd : (allNodes s).Nodup := hI.nodup
  have hhnd : ((handles s).map Handle.node).Nodup := by
    have h1 := hnd; unfold allNodes at h1
    rw [List.append_assoc, List.nodup_append] at h1; exact h1.1
  have hne : ∀ h ∈ handles s', h.node ≠ sl.h.node := by
    intro h hm heq
    rw [hh, List.map_append, List.map_cons, (List.perm_middle).nodup_iff, List.nodup_cons] at hhnd
    apply hhnd.1
    rw [← heq, ← List.map_append, ← hh']
    exact List.mem_map_of_mem hm
  have hnrec : sl.h.node ∉ recNodes s := by
    intro hc
    have h1 := hnd; unfold allNodes at h1
    rw [List.append_assoc, List.nodup_append] at h1
    exact h1.2.2 sl.h.node (List.mem_map_of_mem hmem) sl.h.node (by simp [hc]) rfl
  have hntp : sl.h.node ∉ s.toProcess := by
    intro hc
    have h1 := hnd; unfold allNodes at h1
    rw [List.append_assoc, List.nodup_append] at h1
    exact h1.2.2 sl.h.node (List.mem_map_of_mem hmem) sl.h.node (by simp [hc]) rfl
  have hnd0 : s.flags.done sl.h.node = false := by
    cases hd : s.flags.done sl.h.node
    · rfl
    · exact absurd ((hI.doneIff _).1 hd) hnrec
  have hdmono : ∀ m, s.flags.done m = true → s'.flags.done m = true := by
    intro m hm; rw [e3, setFlag_true]; exact .inr hm
  have hfmono : ∀ m, s.flags.failed m = true → s'.flags.failed m = true := by
    intro m hm; rw [e4]; split
    · rw [setFlag_true]; exact .inr hm
    · exact hm
  have hfsame : ∀ m, m ≠ sl.h.node → s'.flags.failed m = s.flags.failed m := by
    intro m hm
    rw [e4]; split
    · exact setFlag_other hm
    · rfl
  have hdne : ∀ m, s.flags.done m = true → m ≠ sl.h.node := by
    rintro m hm rfl; rw [hnd0] at hm; cases hm
  have hruns : s'.erec.runs = s.erec.runs ++ [r] := by rw [e11]; rfl
  constructor
  · simp [e0, hp]
  · simp [e0, hp]
  · simp [e0, hp]
  · rw [e1]; exact hI.tpSorted
  · exact (hperm.nodup_iff).2 hnd
  · intro n hn; exact hI.inNodes n (hperm.mem_iff.1 hn)
  · intro _ n hn; exact hperm.mem_iff.2 (hI.part hact n hn)
  · intro n; rw [e3, setFlag_true, hrr, hI.doneIff, List.mem_append, List.mem_singleton, or_comm]
  · intro n
    rw [hruns]
    simp only [List.mem_append, List.mem_singleton]
    constructor
    · intro h
      by_cases hn : n = sl.h.node
      · subst hn
        rw [e4] at h
        split at h
        · rename_i hb; exact ⟨r, .inr rfl, hrn, hb⟩
        · obtain ⟨r2, h2, h3⟩ := (hI.failedIff _).1 h
          exact ⟨r2, .inl h2, h3⟩
      · rw [hfsame n hn] at h
        obtain ⟨r2, h2, h3⟩ := (hI.failedIff _).1 h
        exact ⟨r2, .inl h2, h3⟩
    · rintro ⟨r2, h2 | h2, h3, h4⟩
      · exact hfmono n ((hI.failedIff n).2 ⟨r2, h2, h3, h4⟩)
      · subst h2
        rw [e4, if_pos h4, setFlag_true]; left; rw [← h3, hrn]
  · rw [e1]; intro n hn
    rw [e5 n (by rintro rfl; exact hntp hn)]; exact hI.tpIdle n hn
  · intro h hm hl
    obtain ⟨a, b, c, d', e, f, g⟩ := hI.launched h (hsub h hm) hl
    refine ⟨?_, ?_, ?_, ?_, ?_, Nat.le_trans f e12, ?_⟩
    · rw [e5 _ (hne h hm)]; exact a
    · rw [e10]; exact b
    · rw [e2]; exact c
    · intro m h1 h2
      rw [hfsame m (hdne m (hI.preds h (hsub h hm) m h2))]; exact d' m h1 h2
    · intro x hx
      rw [e6]
      refine ⟨e x hx, ?_⟩
      intro hx'
      cases hsl : sl.h.launched
      · exact (hI.fresh (by simp [hp]) sl.h hmem hsl).2.2 x hx' (e x hx)
      · exact hI.excl h (hsub h hm) sl.h hmem hl hsl (hne h hm) x hx hx'
    · intro r2 hr2' ha
      rw [hruns] at hr2'
      rcases List.mem_append.1 hr2' with h1 | h1
      · exact g r2 h1 ha
      · rw [List.mem_singleton] at h1; subst h1
        rw [hrn] at ha
        have := hI.preds h (hsub h hm) _ ha
        rw [hnd0] at this; cases this
  · intro _ h hm hl
    obtain ⟨a, b, c⟩ := hI.fresh (by simp [hp]) h (hsub h hm) hl
    refine ⟨?_, ?_, ?_⟩
    · rw [e5 _ (hne h hm)]; exact a
    · rw [e10]; exact b
    · intro x hx; rw [e6]; intro hc; exact c x hx hc.1
  · intro h hm m hm2; exact hdmono m (hI.preds h (hsub h hm) m hm2)
  · intro n hn
    rw [e10] at hn ⊢
    rcases hI.workerOnly n hn with h1 | ⟨h, h1, h2, h3⟩
    · left; rw [hrr]; exact ⟨by simp [h1.1], h1.2⟩
    · by_cases hns : n = sl.h.node
      · left
        subst hns
        refine ⟨by rw [hrr]; simp, ?_⟩
        rcases hw with hw | hw
        · exact absurd hw hn
        · exact hw
      · right
        refine ⟨h, ?_, h2, h3⟩
        rw [hh] at h1; rw [hh']
        simp only [List.mem_append, List.mem_cons] at h1 ⊢
        rcases h1 with h1 | rfl | h1
        · exact .inl h1
        · exact absurd h2.symm hns
        · exact .inr h1
  · rw [e10]; exact hI.seq
  · intro _ x hx
    rw [e6] at hx
    obtain ⟨h, h1, h2, h3⟩ := hI.usedSub hact x hx.1
    refine ⟨h, ?_, h2, h3⟩
    rw [hh] at h1; rw [hh']
    simp only [List.mem_append, List.mem_cons] at h1 ⊢
    rcases h1 with h1 | rfl | h1
    · exact .inl h1
    · exact absurd h3 hx.2
    · exact .inr h1
  · intro h1 m1 h2 m2; exact hI.excl h1 (hsub h1 m1) h2 (hsub h2 m2)
  · rw [e7]; intro x hx
    exact hI.lastFresh x (by rw [ht]; exact mem_dropLast_of_tail hx)
  · rw [e8]; exact hI.keptLaunched
  · simp [e0, hp]
  · intro h0; have := hI.cap h0; rw [hh] at this; rw [hh']; simp at this ⊢; omega
  · intro h0; have := hI.cap0 h0; rw [hh] at this; rw [hh']; simp at this ⊢; omega
  · rw [e8, e9]; have := hI.passedLen; simp; omega
  · simp [e0, hp, Phase.isClean]
  · intro r' hr'
    rw [hruns] at hr'
    rcases List.mem_append.1 hr' with h1 | h1
    · refine (hI.recs r' h1).mono e12 hdmono e2 hfmono
        (fun m hm => hfsame m (hdne m hm)) ?_
      intro r2 hr2'
      rw [hruns] at hr2'
      rcases List.mem_append.1 hr2' with h2 | h2
      · exact .inl h2
      · rw [List.mem_singleton] at h2; subst h2; right; rw [hrn]; exact hnd0
    · rw [List.mem_singleton] at h1; subst h1
      have hpd : ∀ m, AfterEdge C.dag r'.node m → s.flags.done m = true := by
        rw [hrn]; exact hI.preds sl.h hmem
      exact {
        t := hr1
        name := hr2
        times := hr3
        preds := fun m hm => hdmono m (hpd m hm)
        predTimes := by
          intro r2 h2 ha
          rw [hruns] at h2
          rcases List.mem_append.1 h2 with h2 | h2
          · exact hr4 r2 h2 ha
          · rw [List.mem_singleton] at h2; subst h2
            have := hpd _ ha
            rw [hrn, hnd0] at this; cases this
        noFail := by
          intro h1 m h2 h3
          rw [hfsame m (hdne m (hpd m h3))]; exact hr5 h1 m h2 h3
        depf := by
          intro h1
          obtain ⟨a, b, m, h2, h3⟩ := hr6 h1
          exact ⟨a, b, m, h2, hfmono m h3⟩
        skip := by rw [e2]; exact hr7
        ran := by rw [e2]; exact hr8 }
  · intro st
    rw [e11]
    simp only [ExecRecord.push, stats_incr, hI.stats, List.countP_append, List.countP_singleton]
    simp
  · rw [e11]; exact fun _ => hI.total hact
  · rw [e2]; exact hI.inval
  · rw [e2]; exact fun _ => hI.invalActive hact
  · exact fun _ => hI.acyc hact
  · exact fun _ => hI.answers hact
  · rw [e0, e1]; exact hI.drain
  · simp [e0, hp]
  · rw [e0, e1]; exact hI.tpNonempty

theorem inv_ub {C : Cfg} {s : St} (hI : Inv C s) : Inv C { s with phase := .ub } :=
  hI.phase rfl rfl rfl rfl rfl rfl rfl rfl (Nat.le_refl _) (by simp) (by simp) (by simp)
    (by simp [Phase.active]) (by simp) (by simp [Phase.active]) (by simp [Phase.draining])
    (by simp) (by simp) (by simp)

/-- A launched job is collected. -/
theorem inv_collect {C : Cfg} {s : St} (hI : Inv C s) {d : Bool} (hp : s.phase = .clean d)
    {sl : Slot} {rest : List Slot} (ht : s.todo = sl :: rest) (hl : sl.h.launched = true)
    (hw : s.worker sl.h.node = .finished) :
    Inv C (collect C s sl.ref sl.h rest) := by
  have hmem : sl.h ∈ handles s := by simp [handles, ht]
  obtain ⟨a, b, c, d', e, f, g⟩ := hI.launched sl.h hmem hl
  unfold collect
  simp only
  split
  · exact inv_ub hI
  · rename_i rc hrc
    by_cases h0 : rc = 0
    · simp only [h0, ne_eq, not_true_eq_false, ↓reduceIte]
      refine hI.complete hp ht (r := _) (by rfl) rfl rfl rfl rfl rfl (fun _ _ => rfl) ?_ rfl rfl rfl
        rfl rfl ?_ (.inr hw) rfl rfl ?_ g (fun _ => d') (by simp) (by simp) ?_
      · intro x; simp [Joque.complete, St.emit]
      · simp [Joque.complete, St.emit]
      · simp [Joque.complete, St.emit, St.now]; omega
      · intro _; simp [c, hrc, h0]
    · simp only [h0, ne_eq, not_false_eq_true, ↓reduceIte]
      refine hI.complete hp ht (r := _) (by rfl) rfl rfl rfl rfl rfl (fun _ _ => rfl) ?_ rfl rfl rfl
        rfl rfl ?_ (.inr hw) rfl rfl ?_ g (fun _ => d') (by simp) (by simp) ?_
      · intro x; simp [Joque.complete, St.emit]
      · simp [Joque.complete, St.emit]
      · simp [Joque.complete, St.emit, St.now]; omega
      · intro _; simp [c, hrc, h0]

end Joque
