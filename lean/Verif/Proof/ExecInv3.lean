import Verif.Proof.ExecInv2

namespace Joque

theorem Inv.slot_mem {s : St} {sl : Slot} {rest : List Slot} (ht : s.todo = sl :: rest) :
    sl.h ∈ handles s := by simp [handles, ht]

theorem Inv.fresh_last {C : Cfg} {s : St} (hI : Inv C s) {sl : Slot} {rest : List Slot}
    (ht : s.todo = sl :: rest) (hl : sl.h.launched = false) : rest = [] := by
  cases rest with
  | nil => rfl
  | cons b rest =>
    have := hI.lastFresh sl (by rw [ht]; simp [List.dropLast])
    rw [hl] at this; cases this

theorem Inv.handle_node {C : Cfg} {s : St} (hI : Inv C s) {h : Handle} (hm : h ∈ handles s) :
    h.node ∈ C.dag.nodes := by
  apply hI.inNodes
  unfold allNodes
  simp only [List.mem_append]
  exact .inl (.inl (List.mem_map_of_mem hm))

theorem Inv.inval_known {C : Cfg} {s : St} (hI : Inv C s) (ha : s.phase.active = true) {n : Node}
    (hn : n ∈ C.dag.nodes) : s.flags.inval n = .invalid ∨ s.flags.inval n = .valid := by
  rcases Classical.em (Stale C.dag C.ask n) with h | h
  · exact .inl ((hI.invalActive ha n hn).1 h)
  · exact .inr ((hI.invalActive ha n hn).2 h)

theorem Inv.ends_le {C : Cfg} {s : St} (hI : Inv C s) {r : RunRecord} (hr : r ∈ s.erec.runs) :
    r.end ≤ s.trace.length := (hI.recs r hr).times.2

theorem Inv.fresh_used {C : Cfg} {s : St} (hI : Inv C s) (hu : s.phase ≠ .ub) {h : Handle}
    (hm : h ∈ handles s) (hl : h.launched = false) (x : Res) : x ∈ s.used ↔ x ∈ s.used ∧ x ∉ C.resources h.node :=
  ⟨fun hx => ⟨hx, fun hx' => (hI.fresh hu h hm hl).2.2 x hx' hx⟩, fun hx => hx.1⟩

/-- `std::async` started a thread. -/
theorem inv_launch {C : Cfg} {s : St} (hI : Inv C s) {d : Bool} (hp : s.phase = .clean d)
    {sl : Slot} {rest : List Slot} (ht : s.todo = sl :: rest) (hl : sl.h.launched = false)
    (hinv : s.flags.inval sl.h.node = .invalid)
    (hnf : ∀ m, HasEdge C.dag .requires sl.h.node m → s.flags.failed m = false)
    (htc : C.threadCount ≠ 0) {tr : List Event} (htr : s.trace.length ≤ tr.length) :
    Inv C { s with
      flags := { s.flags with started := setFlag s.flags.started sl.h.node }
      used := s.used ++ C.resources sl.h.node
      trace := tr
      worker := setWorker s.worker sl.h.node .queued
      todo := ⟨sl.ref, { sl.h with launched := true, start := s.now }⟩ :: rest } := by
  have hact : s.phase.active = true := by rw [hp]; rfl
  have hrest := hI.fresh_last ht hl
  subst hrest
  have hmem : sl.h ∈ handles s := Inv.slot_mem ht
  obtain ⟨f1, f2, f3⟩ := hI.fresh (by simp [hp]) sl.h hmem hl
  have hh : handles s = s.kept ++ [sl.h] := by simp [handles, ht]
  generalize hs' : ({ s with
      flags := { s.flags with started := setFlag s.flags.started sl.h.node }
      used := s.used ++ C.resources sl.h.node
      trace := tr
      worker := setWorker s.worker sl.h.node .queued
      todo := ⟨sl.ref, { sl.h with launched := true, start := s.now }⟩ :: [] } : St) = s'
  have hh' : handles s' = s.kept ++ [{ sl.h with launched := true, start := s.now }] := by
    subst hs'; simp [handles]
  have ha : allNodes s' = allNodes s := by
    unfold allNodes; rw [hh, hh']; subst hs'; simp [recNodes]
  have hhnd : ((handles s).map Handle.node).Nodup := by
    have h1 := hI.nodup; unfold allNodes at h1
    rw [List.append_assoc, List.nodup_append] at h1; exact h1.1
  have hne : ∀ h ∈ s.kept, h.node ≠ sl.h.node := by
    intro h hm heq
    rw [hh, List.map_append, List.nodup_append] at hhnd
    exact hhnd.2.2 h.node (List.mem_map_of_mem hm) sl.h.node (by simp) heq
  have hks : ∀ h ∈ s.kept, h ∈ handles s := by
    intro h hm; rw [hh]; exact List.mem_append_left _ hm
  have hntp : sl.h.node ∉ s.toProcess := by
    intro hc
    have h1 := hI.nodup; unfold allNodes at h1
    rw [List.append_assoc, List.nodup_append] at h1
    exact h1.2.2 sl.h.node (List.mem_map_of_mem hmem) sl.h.node (by simp [hc]) rfl
  have hcase : ∀ h ∈ handles s', h ∈ s.kept ∨ h = { sl.h with launched := true, start := s.now } := by
    intro h hm; rw [hh'] at hm; simpa using hm
  constructor
  · subst hs'; simp [hp]
  · subst hs'; simp [hp]
  · subst hs'; simp [hp]
  · subst hs'; exact hI.tpSorted
  · rw [ha]; exact hI.nodup
  · rw [ha]; exact hI.inNodes
  · rw [ha]; exact fun _ => hI.part hact
  · subst hs'; exact hI.doneIff
  · subst hs'; exact hI.failedIff
  · subst hs'
    intro n hn
    show setFlag s.flags.started sl.h.node n = false
    rw [setFlag_other (by rintro rfl; exact hntp hn)]
    exact hI.tpIdle n hn
  · intro h hm hl'
    rcases hcase h hm with hk | rfl
    · obtain ⟨a, b, c, d', e, f, g⟩ := hI.launched h (hks h hk) (hI.keptLaunched h hk)
      subst hs'
      refine ⟨?_, ?_, c, d', ?_, Nat.le_trans f htr, g⟩
      · show setFlag _ _ _ = true
        rw [setFlag_true]; exact .inr a
      · show setWorker _ _ _ _ ≠ .idle
        simp [setWorker, hne h hk, b]
      · intro r hr; exact List.mem_append_left _ (e r hr)
    · subst hs'
      refine ⟨?_, ?_, hinv, fun m h1 _ => hnf m h1, ?_, htr, ?_⟩
      · show setFlag _ _ _ = true
        rw [setFlag_true]; exact .inl rfl
      · show setWorker _ _ _ _ ≠ .idle
        simp [setWorker]
      · intro r hr; exact List.mem_append_right _ hr
      · intro r hr _; exact hI.ends_le hr
  · intro _ h hm hl'
    rcases hcase h hm with hk | rfl
    · rw [hI.keptLaunched h hk] at hl'; cases hl'
    · cases hl'
  · intro h hm m hm2
    rcases hcase h hm with hk | rfl
    · subst hs'; exact hI.preds h (hks h hk) m hm2
    · subst hs'; exact hI.preds sl.h hmem m hm2
  · intro n hn
    have hw : s'.worker = setWorker s.worker sl.h.node .queued := by subst hs'; rfl
    by_cases hns : n = sl.h.node
    · right
      exact ⟨{ sl.h with launched := true, start := s.now }, by rw [hh']; exact List.mem_append_right _ (List.mem_singleton.2 rfl), hns.symm, rfl⟩
    · rw [hw] at hn ⊢
      simp only [setWorker, hns, if_false] at hn ⊢
      rcases hI.workerOnly n hn with h1 | ⟨h, h1, h2, h3⟩
      · left; subst hs'; exact h1
      · right
        refine ⟨h, ?_, h2, h3⟩
        rw [hh] at h1; rw [hh']
        rcases List.mem_append.1 h1 with h1 | h1
        · exact List.mem_append_left _ h1
        · rw [List.mem_singleton] at h1; subst h1; rw [hl] at h3; cases h3
  · exact fun h => absurd h htc
  · intro _ x hx
    have hx' : x ∈ s.used ∨ x ∈ C.resources sl.h.node := by
      subst hs'; exact List.mem_append.1 hx
    rcases hx' with hx' | hx'
    · obtain ⟨h, h1, h2, h3⟩ := hI.usedSub hact x hx'
      refine ⟨h, ?_, h2, h3⟩
      rw [hh] at h1; rw [hh']
      rcases List.mem_append.1 h1 with h1 | h1
      · exact List.mem_append_left _ h1
      · rw [List.mem_singleton] at h1; subst h1; rw [hl] at h2; cases h2
    · exact ⟨{ sl.h with launched := true, start := s.now }, by rw [hh']; exact List.mem_append_right _ (List.mem_singleton.2 rfl), rfl, hx'⟩
  · intro h1 m1 h2 m2 l1 l2 hne' x hx hx'
    rcases hcase h1 m1 with k1 | rfl
    · rcases hcase h2 m2 with k2 | rfl
      · exact hI.excl h1 (hks _ k1) h2 (hks _ k2) l1 l2 hne' x hx hx'
      · exact f3 x hx' ((hI.launched h1 (hks _ k1) l1).2.2.2.2.1 x hx)
    · rcases hcase h2 m2 with k2 | rfl
      · exact f3 x hx ((hI.launched h2 (hks _ k2) l2).2.2.2.2.1 x hx')
      · exact hne' rfl
  · subst hs'; simp
  · subst hs'; exact hI.keptLaunched
  · subst hs'; simp [hp]
  · have := hI.cap; rw [hh] at this; rw [hh']; simpa using this
  · exact fun h => absurd h htc
  · subst hs'; exact hI.passedLen
  · subst hs'; simp [hp, Phase.isClean]
  · intro r hr
    subst hs'
    exact (hI.recs r hr).mono htr (fun _ h => h) rfl (fun _ h => h) (fun _ _ => rfl)
        (fun _ h => .inl h)
  · subst hs'; exact hI.stats
  · subst hs'; exact hI.total
  · subst hs'; exact hI.inval
  · subst hs'; exact hI.invalActive
  · subst hs'; exact hI.acyc
  · subst hs'; exact hI.answers
  · subst hs'; exact hI.drain
  · subst hs'; simp [hp]
  · subst hs'; exact hI.tpNonempty

/-- `std::async` threw. -/
theorem inv_asyncFail {C : Cfg} {s : St} (hI : Inv C s) {d : Bool} (hp : s.phase = .clean d)
    {sl : Slot} {rest : List Slot} (ht : s.todo = sl :: rest) (hl : sl.h.launched = false)
    {tr : List Event} (htr : s.trace.length ≤ tr.length) :
    Inv C { s with
      flags := { s.flags with started := setFlag s.flags.started sl.h.node }
      used := s.used ++ C.resources sl.h.node
      trace := tr
      phase := .unwinding .asyncFailed
      todo := rest } := by
  have hrest := hI.fresh_last ht hl
  subst hrest
  have hmem : sl.h ∈ handles s := Inv.slot_mem ht
  have hh : handles s = s.kept ++ [sl.h] := by simp [handles, ht]
  generalize hs' : ({ s with
      flags := { s.flags with started := setFlag s.flags.started sl.h.node }
      used := s.used ++ C.resources sl.h.node
      trace := tr
      phase := .unwinding .asyncFailed
      todo := [] } : St) = s'
  have hh' : handles s' = s.kept := by subst hs'; simp [handles]
  have hsub : (allNodes s').Sublist (allNodes s) := by
    unfold allNodes
    rw [hh, hh']
    have : recNodes s' = recNodes s := by subst hs'; rfl
    rw [this]
    have : s'.toProcess = s.toProcess := by subst hs'; rfl
    rw [this]
    apply List.Sublist.append_right
    apply List.Sublist.append_right
    simp
  have hks : ∀ h ∈ s.kept, h ∈ handles s := by
    intro h hm; rw [hh]; exact List.mem_append_left _ hm
  have hntp : sl.h.node ∉ s.toProcess := by
    intro hc
    have h1 := hI.nodup; unfold allNodes at h1
    rw [List.append_assoc, List.nodup_append] at h1
    exact h1.2.2 sl.h.node (List.mem_map_of_mem hmem) sl.h.node (by simp [hc]) rfl
  have hna : s'.phase = .unwinding .asyncFailed := by subst hs'; rfl
  have hact : s'.phase.active ≠ true := by rw [hna]; simp [Phase.active]
  constructor
  · subst hs'; simp
  · subst hs'; simp
  · subst hs'; simp
  · subst hs'; exact hI.tpSorted
  · exact hI.nodup.sublist hsub
  · exact fun n hn => hI.inNodes n (hsub.subset hn)
  · exact fun h => absurd h hact
  · subst hs'; exact hI.doneIff
  · subst hs'; exact hI.failedIff
  · subst hs'
    intro n hn
    show setFlag s.flags.started sl.h.node n = false
    rw [setFlag_other (by rintro rfl; exact hntp hn)]
    exact hI.tpIdle n hn
  · rw [hh']
    intro h hm hl'
    obtain ⟨a, b, c, d', e, f, g⟩ := hI.launched h (hks h hm) hl'
    subst hs'
    refine ⟨?_, b, c, d', ?_, Nat.le_trans f htr, g⟩
    · show setFlag _ _ _ = true
      rw [setFlag_true]; exact .inr a
    · intro r hr; exact List.mem_append_left _ (e r hr)
  · rw [hh']
    intro _ h hm hl'
    rw [hI.keptLaunched h hm] at hl'; cases hl'
  · rw [hh']; intro h hm m hm2; subst hs'; exact hI.preds h (hks h hm) m hm2
  · rw [hh']
    intro n hn
    have hn' : s.worker n ≠ .idle := by subst hs'; exact hn
    rcases hI.workerOnly n hn' with h1 | ⟨h, h1, h2, h3⟩
    · left; subst hs'; exact h1
    · right
      refine ⟨h, ?_, h2, h3⟩
      rw [hh] at h1
      rcases List.mem_append.1 h1 with h1 | h1
      · exact h1
      · rw [List.mem_singleton] at h1; subst h1; rw [hl] at h3; cases h3
  · subst hs'; exact hI.seq
  · exact fun h => absurd h hact
  · rw [hh']; intro h1 m1 h2 m2; exact hI.excl h1 (hks _ m1) h2 (hks _ m2)
  · subst hs'; simp
  · subst hs'; exact hI.keptLaunched
  · simp [hna]
  · intro h0; have := hI.cap h0; rw [hh] at this; rw [hh']; simp at this; omega
  · intro h0; have := hI.cap0 h0; rw [hh] at this; rw [hh']; simp at this; simp [this]
  · subst hs'; exact hI.passedLen
  · exact fun h => absurd h hact
  · intro r hr
    subst hs'
    exact (hI.recs r hr).mono htr (fun _ h => h) rfl (fun _ h => h) (fun _ _ => rfl)
        (fun _ h => .inl h)
  · subst hs'; exact hI.stats
  · exact fun h => absurd h hact
  · subst hs'; exact hI.inval
  · exact fun h => absurd h hact
  · exact fun h => absurd h hact
  · exact fun h => absurd h hact
  · simp [hna, Phase.draining]
  · simp [hna]
  · simp [hna]

/-- A job run on the control thread left an indeterminate `retcode`. -/
theorem inv_deferredUB {C : Cfg} {s : St} (hI : Inv C s) {d : Bool} (hp : s.phase = .clean d)
    {sl : Slot} {rest : List Slot} (ht : s.todo = sl :: rest) (hl : sl.h.launched = false)
    {tr : List Event} (htr : s.trace.length ≤ tr.length) :
    Inv C { s with
      flags := { s.flags with started := setFlag s.flags.started sl.h.node }
      used := s.used ++ C.resources sl.h.node
      trace := tr
      phase := .ub } := by
  have hmem : sl.h ∈ handles s := Inv.slot_mem ht
  have hntp : sl.h.node ∉ s.toProcess := by
    intro hc
    have h1 := hI.nodup; unfold allNodes at h1
    rw [List.append_assoc, List.nodup_append] at h1
    exact h1.2.2 sl.h.node (List.mem_map_of_mem hmem) sl.h.node (by simp [hc]) rfl
  exact {
    createdInit := by simp
    noAbort := by simp
    noFuel := by simp
    tpSorted := hI.tpSorted
    nodup := hI.nodup
    inNodes := hI.inNodes
    part := by simp [Phase.active]
    doneIff := hI.doneIff
    failedIff := hI.failedIff
    tpIdle := by
      intro n hn
      show setFlag s.flags.started sl.h.node n = false
      rw [setFlag_other (by rintro rfl; exact hntp hn)]
      exact hI.tpIdle n hn
    launched := by
      intro h hm hl
      obtain ⟨a, b, c, d, e, f, g⟩ := hI.launched h hm hl
      refine ⟨?_, b, c, d, ?_, Nat.le_trans f htr, g⟩
      · show setFlag _ _ _ = true
        rw [setFlag_true]; exact .inr a
      · intro r hr; exact List.mem_append_left _ (e r hr)
    fresh := by simp
    preds := hI.preds
    workerOnly := hI.workerOnly
    seq := hI.seq
    usedSub := by simp [Phase.active]
    excl := hI.excl
    lastFresh := hI.lastFresh
    keptLaunched := hI.keptLaunched
    pickLaunched := by simp
    cap := hI.cap
    cap0 := hI.cap0
    passedLen := hI.passedLen
    notClean := by simp [Phase.active]
    recs := fun r hr => (hI.recs r hr).mono htr (fun _ h => h) rfl (fun _ h => h)
      (fun _ _ => rfl) (fun _ h => .inl h)
    stats := hI.stats
    total := by simp [Phase.active]
    inval := hI.inval
    invalActive := by simp [Phase.active]
    acyc := by simp [Phase.active]
    answers := by simp [Phase.active]
    drain := by simp [Phase.draining]
    finishedEmpty := by simp
    tpNonempty := by simp }

theorem inv_startRun {C : Cfg} {s : St} (hI : Inv C s) {d : Bool} (hp : s.phase = .clean d)
    {sl : Slot} {rest : List Slot} (ht : s.todo = sl :: rest) (hl : sl.h.launched = false)
    (ok : Bool) : Inv C (startRun C s ok sl.ref sl.h rest) := by
  have hact : s.phase.active = true := by rw [hp]; rfl
  have hmem : sl.h ∈ handles s := Inv.slot_mem ht
  obtain ⟨f1, f2, f3⟩ := hI.fresh (by simp [hp]) sl.h hmem hl
  have hu := hI.fresh_used (by simp [hp]) hmem hl
  unfold startRun
  simp only
  split
  · rename_i hc
    rcases hI.inval_known hact (hI.handle_node hmem) with h | h <;> rw [h] at hc <;> cases hc
  · rename_i hunk
    split
    · rename_i hdf
      have hdf' : anyDepFailed s.flags (C.dag.outEdges sl.h.node) = true := hdf
      rw [anyDepFailed_iff] at hdf'
      refine hI.complete hp ht (r := _) (by rfl) rfl rfl rfl rfl rfl (fun _ _ => rfl) ?_ rfl rfl rfl
        rfl rfl ?_ (.inl f2) rfl rfl ?_ ?_ (by simp) ?_ (by simp) (by simp)
      · exact hu
      · simp [Joque.complete, St.emit]
      · simp [Joque.complete, St.emit, St.now]
      · intro r hr _; exact hI.ends_le hr
      · exact fun _ => ⟨rfl, rfl, hdf'⟩
    · rename_i hdf
      have hdf' : ¬ anyDepFailed s.flags (C.dag.outEdges sl.h.node) = true := hdf
      rw [anyDepFailed_iff] at hdf'
      have hnf : ∀ m, HasEdge C.dag .requires sl.h.node m → s.flags.failed m = false := by
        intro m hm
        cases h : s.flags.failed m
        · rfl
        · exact absurd ⟨m, hm, h⟩ hdf'
      split
      · rename_i hv
        refine hI.complete hp ht (r := _) (by rfl) rfl rfl rfl rfl rfl (fun _ _ => rfl) ?_ rfl rfl rfl
          rfl rfl ?_ (.inl f2) rfl rfl ?_ ?_ (fun _ m h1 _ => hnf m h1) (by simp) ?_ (by simp)
        · exact hu
        · simp [Joque.complete, St.emit]
        · simp [Joque.complete, St.emit, St.now]
        · intro r hr _; exact hI.ends_le hr
        · exact fun _ => ⟨rfl, rfl, hv⟩
      · rename_i hv
        have hinv : s.flags.inval sl.h.node = .invalid := by
          rcases hI.inval_known hact (hI.handle_node hmem) with h | h
          · exact h
          · exact absurd h hv
        split
        · -- deferred
          unfold collect
          simp only
          split
          · exact inv_deferredUB hI hp ht hl (tr := _) (by simp [St.emit])
          · rename_i rc hrc
            by_cases h0 : rc = 0
            · simp only [h0, ne_eq, not_true_eq_false, ↓reduceIte]
              refine hI.complete hp ht (r := _) (by rfl) rfl rfl rfl rfl rfl
                (fun m hm => ?_) ?_ rfl rfl rfl
                rfl rfl ?_ (.inl f2) rfl rfl ?_ ?_ (fun _ m h1 _ => hnf m h1) (by simp) (by simp) ?_
              · exact setFlag_other hm
              · intro x
                simp only [Joque.complete, St.emit, List.mem_filter, List.mem_append, decide_eq_true_eq]
                constructor
                · rintro ⟨h1 | h1, h2⟩
                  · exact ⟨h1, h2⟩
                  · exact absurd h1 h2
                · rintro ⟨h1, h2⟩; exact ⟨.inl h1, h2⟩
              · simp [Joque.complete, St.emit]
              · simp [Joque.complete, St.emit, St.now]
              · intro r hr _; exact hI.ends_le hr
              · intro _; simp [hinv, hrc, h0]
            · simp only [h0, ne_eq, not_false_eq_true, ↓reduceIte]
              refine hI.complete hp ht (r := _) (by rfl) rfl rfl rfl rfl rfl
                (fun m hm => ?_) ?_ rfl rfl rfl
                rfl rfl ?_ (.inl f2) rfl rfl ?_ ?_ (fun _ m h1 _ => hnf m h1) (by simp) (by simp) ?_
              · exact setFlag_other hm
              · intro x
                simp only [Joque.complete, St.emit, List.mem_filter, List.mem_append, decide_eq_true_eq]
                constructor
                · rintro ⟨h1 | h1, h2⟩
                  · exact ⟨h1, h2⟩
                  · exact absurd h1 h2
                · rintro ⟨h1, h2⟩; exact ⟨.inl h1, h2⟩
              · simp [Joque.complete, St.emit]
              · simp [Joque.complete, St.emit, St.now]
              · intro r hr _; exact hI.ends_le hr
              · intro _; simp [hinv, hrc, h0]
        · rename_i htc
          split
          · have := inv_launch hI hp ht hl hinv hnf htc
              (tr := s.trace ++ [.beforeRun s.erec sl.h.node] ++ [.launch sl.h.node]) (by simp)
            exact this
          · have := inv_asyncFail hI hp ht hl
              (tr := s.trace ++ [.beforeRun s.erec sl.h.node]) (by simp)
            exact this

end Joque
