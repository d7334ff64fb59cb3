import Verif.Proof.TraceInv

namespace Joque

/-- The first element of `todo` ends and is recorded. -/
theorem TInv.complete {C : Cfg} {s s' : St} (hI : Inv C s) (hT : TInv C s) {d : Bool}
    (hp : s.phase = .clean d)
    {sl : Slot} {rest : List Slot} (ht : s.todo = sl :: rest) {r : RunRecord}
    (hrn : r.node = sl.h.node) {evs : List Event}
    (e0 : s'.phase = s.phase) (e1 : s'.toProcess = s.toProcess)
    (e7 : s'.todo = rest) (e8 : s'.kept = s.kept) (e9 : s'.passed = s.passed ++ [sl.ref])
    (e10 : s'.worker = s.worker) (e11 : s'.erec = s.erec.push r)
    (e12 : s'.trace = s.trace ++ evs ++ [.afterRun s.erec r sl.ref])
    (hevs : ∀ m, m ≠ sl.h.node → life m evs = [])
    (hlife : life sl.h.node s.trace ++ life sl.h.node evs ++ [.after] =
      recLife C.threadCount r.status)
    (hrecs : recsOf evs = []) (hpro : ∀ e ∈ evs, proEv e = false)
    (hae : ∀ er, .afterExecution er ∉ evs)
    (hfr : sl.h.launched = true → ∀ er n, .beforeRun er n ∉ evs)
    (hg : ∀ e pre post, evs = pre ++ e :: post → Guard C (s.trace ++ pre) e) :
    TInv C s' := by
  have hact : s.phase.active = true := by rw [hp]; rfl
  have hh : handles s = s.kept ++ sl.h :: rest.map Slot.h := by simp [handles, ht]
  have hh' : handles s' = s.kept ++ rest.map Slot.h := by simp [handles, e7, e8]
  have hmem : sl.h ∈ handles s := by rw [hh]; simp
  have hsub : ∀ h ∈ handles s', h ∈ handles s := by
    intro h hm; rw [hh'] at hm; rw [hh]
    rcases List.mem_append.1 hm with h1 | h1
    · exact List.mem_append_left _ h1
    · exact List.mem_append_right _ (List.mem_cons_of_mem _ h1)
  have hrr : recNodes s' = recNodes s ++ [sl.h.node] := by
    simp [recNodes, e11, ExecRecord.push, hrn]
  have hnd : (allNodes s).Nodup := hI.nodup
  have hhnd : ((handles s).map Handle.node).Nodup := by
    have h1 := hnd; unfold allNodes at h1
    rw [List.append_assoc, List.nodup_append] at h1; exact h1.1
  have hne : ∀ h ∈ handles s', h.node ≠ sl.h.node := by
    intro h hm heq
    rw [hh, List.map_append, List.map_cons, (List.perm_middle).nodup_iff, List.nodup_cons] at hhnd
    apply hhnd.1
    rw [← heq, ← List.map_append, ← hh']
    exact List.mem_map_of_mem hm
  have hnrec : sl.h.node ∉ recNodes s := by
    intro hc
    have h1 := hnd; unfold allNodes at h1
    rw [List.append_assoc, List.nodup_append] at h1
    exact h1.2.2 sl.h.node (List.mem_map_of_mem hmem) sl.h.node (by simp [hc]) rfl
  have hntp : sl.h.node ∉ s.toProcess := by
    intro hc
    have h1 := hnd; unfold allNodes at h1
    rw [List.append_assoc, List.nodup_append] at h1
    exact h1.2.2 sl.h.node (List.mem_map_of_mem hmem) sl.h.node (by simp [hc]) rfl
  have hna := no_afterExec hT (.inl (by rw [hp]; simp [visPhases]))
  have hruns : s'.erec.runs = s.erec.runs ++ [r] := by rw [e11]; rfl
  have hother : ∀ m, m ≠ sl.h.node → life m s'.trace = life m s.trace := by
    intro m hm
    rw [e12, life_append, life_append, hevs m hm]
    simp [life, tagOf, hrn, hm.symm]
  have hna' : ∀ er, Event.afterExecution er ∉ s.trace ++ evs := by
    intro er h
    rcases List.mem_append.1 h with h | h
    · exact hna er h
    · exact hae er h
  constructor
  · rw [e12]
    apply always_snoc
    · exact always_append hT.always (fun pre e post h => hg e pre post h)
    · refine ⟨hna', ⟨?_, hI.stats, hI.total hact⟩, ?_⟩
      · rw [recsOf_append, hrecs, List.append_nil]; exact hT.recs.symm
      · intro h1
        rw [hrn]
        exact (hT.refs h1).1 sl (by rw [ht]; simp)
  · rw [e12, recsOf_append, recsOf_append, hrecs, hT.recs, hruns]; simp [recsOf]
  · rw [e1]; intro n hn
    rw [hother n (by rintro rfl; exact hntp hn)]; exact hT.lifeTp n hn
  · intro h hm hl
    rw [hother _ (hne h hm), e0]; exact hT.lifeFresh h (hsub h hm) hl
  · intro h hm hl
    rw [hother _ (hne h hm), e10, e0]; exact hT.lifeLaunched h (hsub h hm) hl
  · intro r' hr'
    rw [hruns] at hr'
    rcases List.mem_append.1 hr' with h1 | h1
    · rw [hother]
      · exact hT.lifeRec r' h1
      · intro hc; apply hnrec; rw [← hc]; exact List.mem_map_of_mem h1
    · rw [List.mem_singleton] at h1; subst h1
      rw [hrn, e12, life_append, life_append, ← hlife]
      simp [life, tagOf, hrn]
  · intro m hm
    have hm' : m ≠ sl.h.node := by
      rintro rfl; apply hm; unfold allNodes; rw [hrr]; simp
    rw [hother m hm']
    apply hT.lifeOther
    intro hc
    apply hm
    unfold allNodes at hc ⊢
    rw [hh] at hc
    rw [hh', hrr, e1]
    simp only [List.map_append, List.map_cons, List.mem_append, List.mem_cons] at hc ⊢
    rcases hc with ((hc | hc | hc) | hc) | hc
    · exact .inl (.inl (.inl hc))
    · exact absurd hc hm'
    · exact .inl (.inl (.inr hc))
    · exact .inl (.inr (.inl hc))
    · exact .inr hc
  · refine pro_append hT.pro (evs := evs ++ [.afterRun s.erec r sl.ref])
      (by rw [e12, List.append_assoc]) (.inl (by simp [hp, noPro, visPhases])) ?_
    intro e he
    rcases List.mem_append.1 he with he | he
    · exact hpro e he
    · rw [List.mem_singleton] at he; subst he; rfl
  · rw [e7, e9]; have := hT.slots; rw [ht] at this; simp at this ⊢; omega
  · intro h1
    obtain ⟨r1, r2⟩ := hT.refs h1
    rw [e7, e8, e9, zipWith_append_left hI.passedLen]
    exact ⟨fun x hx => r1 x (by rw [ht]; exact List.mem_cons_of_mem _ hx), r2⟩
  · rintro _ ⟨h, hm, hl⟩
    have hsl : sl.h.launched = true := by
      cases hsl : sl.h.launched
      · have := hI.fresh_last ht hsl
        subst this
        rw [hh'] at hm
        simp at hm
        rw [hI.keptLaunched h hm] at hl; cases hl
      · rfl
    right
    rcases hT.noStart hact ⟨h, hsub h hm, hl⟩ with ⟨d', h1⟩ | h1
    · rw [hp] at h1; cases h1
    · rw [e12, List.append_assoc]
      apply noStart_append h1
      intro er n hc
      rcases List.mem_append.1 hc with hc | hc
      · exact hfr hsl er n hc
      · simp at hc
  · intro er hm
    rw [e12] at hm
    rcases List.mem_append.1 hm with hm | hm
    · exact absurd hm (hna' er)
    · simp at hm
  · rw [e0, hp]; simp
  · rw [e0, hp]; simp

theorem TInv.collect {C : Cfg} {s : St} (hI : Inv C s) (hT : TInv C s) {d : Bool}
    (hp : s.phase = .clean d)
    {sl : Slot} {rest : List Slot} (ht : s.todo = sl :: rest) (hl : sl.h.launched = true)
    (hw : s.worker sl.h.node = .finished) :
    TInv C (Joque.collect C s sl.ref sl.h rest) := by
  have hmem : sl.h ∈ handles s := Inv.slot_mem ht
  have hna := no_afterExec hT (.inl (by rw [hp]; simp [visPhases]))
  have htc : C.threadCount ≠ 0 := fun h0 => by rw [hI.seq h0] at hw; cases hw
  have hlife := hT.life_launched (by rw [hp]; rfl) hmem hl
  rw [hw] at hlife
  unfold Joque.collect
  simp only
  split
  · exact hT.ub hI (by simp [hp, noPro])
  · rename_i rc hrc
    have hg : ∀ e pre post, [Event.runLog sl.h.node (asyncLambda (C.outcome sl.h.node)).log] =
        pre ++ e :: post → Guard C (s.trace ++ pre) e := by
      intro e pre post heq
      rcases List.append_eq_singleton_iff.1 heq.symm with ⟨rfl, h⟩ | ⟨_, h⟩
      · simp at h; obtain ⟨rfl, rfl⟩ := h
        simp only [List.append_nil]
        exact ⟨hna, trivial⟩
      · simp at h
    by_cases h0 : rc = 0
    · simp only [h0, ne_eq, not_true_eq_false, ↓reduceIte]
      refine hT.complete hI hp ht (r := _) (by rfl)
        (evs := [.runLog sl.h.node (asyncLambda (C.outcome sl.h.node)).log])
        rfl rfl rfl rfl rfl rfl rfl rfl ?_ ?_ rfl (by simp [proEv]) (by simp) (by simp) hg
      · intro m hm; simp [life, tagOf, hm.symm]
      · rw [hlife]; simp [life, tagOf, workerLife, recLife, htc]
    · simp only [h0, ne_eq, not_false_eq_true, ↓reduceIte]
      refine hT.complete hI hp ht (r := _) (by rfl)
        (evs := [.runLog sl.h.node (asyncLambda (C.outcome sl.h.node)).log])
        rfl rfl rfl rfl rfl rfl rfl rfl ?_ ?_ rfl (by simp [proEv]) (by simp) (by simp) hg
      · intro m hm; simp [life, tagOf, hm.symm]
      · rw [hlife]; simp [life, tagOf, workerLife, recLife, htc]

/-- `before_run` is called in a good moment. -/
theorem guard_before {C : Cfg} {s : St} (hI : Inv C s) (hT : TInv C s) {d : Bool}
    (hp : s.phase = .clean d)
    {sl : Slot} {rest : List Slot} (ht : s.todo = sl :: rest) (hl : sl.h.launched = false) :
    Guard C s.trace (.beforeRun s.erec sl.h.node) := by
  have hact : s.phase.active = true := by rw [hp]; rfl
  have hmem : sl.h ∈ handles s := Inv.slot_mem ht
  have hna := no_afterExec hT (.inl (by rw [hp]; simp [visPhases]))
  refine ⟨hna, hI.handle_node hmem, ?_, erecOK_of_inv hI hT hact, ?_⟩
  · intro m hm; exact recorded_of_done hI hT (hI.preds _ hmem m hm)
  · rcases hT.noStart hact ⟨_, hmem, hl⟩ with ⟨d', h⟩ | h
    · rw [hp] at h; cases h
    · exact h

theorem TInv.launch {C : Cfg} {s : St} (hI : Inv C s) (hT : TInv C s) {d : Bool}
    (hp : s.phase = .clean d)
    {sl : Slot} {rest : List Slot} (ht : s.todo = sl :: rest) (hl : sl.h.launched = false) :
    TInv C { s with
      flags := { s.flags with started := setFlag s.flags.started sl.h.node }
      used := s.used ++ C.resources sl.h.node
      trace := s.trace ++ [.beforeRun s.erec sl.h.node] ++ [.launch sl.h.node]
      worker := setWorker s.worker sl.h.node .queued
      todo := ⟨sl.ref, { sl.h with launched := true, start := s.now }⟩ :: rest } := by
  have hrest := hI.fresh_last ht hl
  subst hrest
  have hmem : sl.h ∈ handles s := Inv.slot_mem ht
  have hna := no_afterExec hT (.inl (by rw [hp]; simp [visPhases]))
  have hh : handles s = s.kept ++ [sl.h] := by simp [handles, ht]
  generalize hs' : ({ s with
      flags := { s.flags with started := setFlag s.flags.started sl.h.node }
      used := s.used ++ C.resources sl.h.node
      trace := s.trace ++ [.beforeRun s.erec sl.h.node] ++ [.launch sl.h.node]
      worker := setWorker s.worker sl.h.node .queued
      todo := ⟨sl.ref, { sl.h with launched := true, start := s.now }⟩ :: [] } : St) = s'
  have hh' : handles s' = s.kept ++ [{ sl.h with launched := true, start := s.now }] := by
    subst hs'; simp [handles]
  have htr : s'.trace = s.trace ++ [.beforeRun s.erec sl.h.node] ++ [.launch sl.h.node] := by
    subst hs'; rfl
  have her : s'.erec = s.erec := by subst hs'; rfl
  have hw : s'.worker = setWorker s.worker sl.h.node .queued := by subst hs'; rfl
  have htp : s'.toProcess = s.toProcess := by subst hs'; rfl
  have hph : s'.phase = s.phase := by subst hs'; rfl
  have ha : allNodes s' = allNodes s := by
    unfold allNodes; rw [hh, hh', htp]; simp [recNodes, her]
  have hnd := hI.nodup
  unfold allNodes at hnd
  rw [List.append_assoc, List.nodup_append] at hnd
  have hhnd := hnd.1
  have hne : ∀ h ∈ s.kept, h.node ≠ sl.h.node := by
    intro h hm heq
    rw [hh, List.map_append, List.nodup_append] at hhnd
    exact hhnd.2.2 h.node (List.mem_map_of_mem hm) sl.h.node (by simp) heq
  have hks : ∀ h ∈ s.kept, h ∈ handles s := by
    intro h hm; rw [hh]; exact List.mem_append_left _ hm
  have hntp : sl.h.node ∉ s.toProcess := fun hc =>
    hnd.2.2 sl.h.node (List.mem_map_of_mem hmem) sl.h.node (by simp [hc]) rfl
  have hnrec : ∀ r ∈ s.erec.runs, r.node ≠ sl.h.node := fun r hr hc =>
    hnd.2.2 sl.h.node (List.mem_map_of_mem hmem) r.node
      (List.mem_append_left _ (List.mem_map_of_mem (f := RunRecord.node) hr)) hc.symm
  have hcase : ∀ h ∈ handles s', h ∈ s.kept ∨ h = { sl.h with launched := true, start := s.now } := by
    intro h hm; rw [hh'] at hm; simpa using hm
  have hother : ∀ m, m ≠ sl.h.node → life m s'.trace = life m s.trace := by
    intro m hm; rw [htr, life_append, life_append]; simp [life, tagOf, hm.symm]
  have hlife0 : life sl.h.node s.trace = [] := by
    exact hT.life_fresh (by rw [hp]; rfl) hmem hl
  constructor
  · rw [htr]
    refine always_snoc (always_snoc hT.always (guard_before hI hT hp ht hl)) ⟨?_, trivial⟩
    intro er hm; simp [hna er] at hm
  · rw [htr, her, recsOf_append, recsOf_append, hT.recs]; simp [recsOf]
  · rw [htp]; intro n hn; rw [hother n (by rintro rfl; exact hntp hn)]; exact hT.lifeTp n hn
  · intro h hm hl'
    rcases hcase h hm with h1 | rfl
    · rw [hI.keptLaunched h h1] at hl'; cases hl'
    · cases hl'
  · intro h hm hl'
    rcases hcase h hm with h1 | rfl
    · left
      rw [hother _ (hne h h1), hT.life_launched (by rw [hp]; rfl) (hks h h1) hl', hw]
      simp [setWorker, hne h h1]
    · left
      rw [hw, htr, life_append, life_append, hlife0]
      simp [setWorker, life, tagOf, workerLife]
  · rw [her]; intro r hr; rw [hother _ (hnrec r hr)]; exact hT.lifeRec r hr
  · rw [ha]; intro n hn
    rw [hother]
    · exact hT.lifeOther n hn
    · rintro rfl; apply hn; unfold allNodes; simp only [List.mem_append]
      exact .inl (.inl (List.mem_map_of_mem hmem))
  · exact pro_append hT.pro (evs := [.beforeRun s.erec sl.h.node, .launch sl.h.node])
      (by rw [htr]; simp) (.inl (by simp [hp, noPro, visPhases])) (by simp [proEv])
  · have := hT.slots; rw [ht] at this; subst hs'; simpa using this
  · intro h1
    obtain ⟨r1, r2⟩ := hT.refs h1
    have := r1 sl (by rw [ht]; simp)
    subst hs'
    exact ⟨by simpa using this, r2⟩
  · rintro _ ⟨h, hm, hl'⟩
    rcases hcase h hm with h1 | rfl
    · rw [hI.keptLaunched h h1] at hl'; cases hl'
    · cases hl'
  · intro er hm; rw [htr] at hm; simp [hna er] at hm
  · rw [hph, hp]; simp
  · rw [hph, hp]; simp

theorem TInv.asyncFail {C : Cfg} {s : St} (hI : Inv C s) (hT : TInv C s) {d : Bool}
    (hp : s.phase = .clean d)
    {sl : Slot} {rest : List Slot} (ht : s.todo = sl :: rest) (hl : sl.h.launched = false) :
    TInv C { s with
      flags := { s.flags with started := setFlag s.flags.started sl.h.node }
      used := s.used ++ C.resources sl.h.node
      trace := s.trace ++ [.beforeRun s.erec sl.h.node]
      phase := .unwinding .asyncFailed
      todo := rest } := by
  have hrest := hI.fresh_last ht hl
  subst hrest
  have hmem : sl.h ∈ handles s := Inv.slot_mem ht
  have hna := no_afterExec hT (.inl (by rw [hp]; simp [visPhases]))
  have hh : handles s = s.kept ++ [sl.h] := by simp [handles, ht]
  generalize hs' : ({ s with
      flags := { s.flags with started := setFlag s.flags.started sl.h.node }
      used := s.used ++ C.resources sl.h.node
      trace := s.trace ++ [.beforeRun s.erec sl.h.node]
      phase := .unwinding .asyncFailed
      todo := [] } : St) = s'
  have hh' : handles s' = s.kept := by subst hs'; simp [handles]
  have htr : s'.trace = s.trace ++ [.beforeRun s.erec sl.h.node] := by subst hs'; rfl
  have her : s'.erec = s.erec := by subst hs'; rfl
  have hw : s'.worker = s.worker := by subst hs'; rfl
  have htp : s'.toProcess = s.toProcess := by subst hs'; rfl
  have hph : s'.phase = .unwinding .asyncFailed := by subst hs'; rfl
  have hnd := hI.nodup
  unfold allNodes at hnd
  rw [List.append_assoc, List.nodup_append] at hnd
  have hhnd := hnd.1
  have hne : ∀ h ∈ s.kept, h.node ≠ sl.h.node := by
    intro h hm heq
    rw [hh, List.map_append, List.nodup_append] at hhnd
    exact hhnd.2.2 h.node (List.mem_map_of_mem hm) sl.h.node (by simp) heq
  have hks : ∀ h ∈ s.kept, h ∈ handles s := by
    intro h hm; rw [hh]; exact List.mem_append_left _ hm
  have hntp : sl.h.node ∉ s.toProcess := fun hc =>
    hnd.2.2 sl.h.node (List.mem_map_of_mem hmem) sl.h.node (by simp [hc]) rfl
  have hnrec : ∀ r ∈ s.erec.runs, r.node ≠ sl.h.node := fun r hr hc =>
    hnd.2.2 sl.h.node (List.mem_map_of_mem hmem) r.node
      (List.mem_append_left _ (List.mem_map_of_mem (f := RunRecord.node) hr)) hc.symm
  have hother : ∀ m, m ≠ sl.h.node → life m s'.trace = life m s.trace := by
    intro m hm; rw [htr, life_append]; simp [life, tagOf, hm.symm]
  have hlife0 : life sl.h.node s.trace = [] := by
    exact hT.life_fresh (by rw [hp]; rfl) hmem hl
  constructor
  · rw [htr]
    exact always_snoc hT.always (guard_before hI hT hp ht hl)
  · rw [htr, her, recsOf_append, hT.recs]; simp [recsOf]
  · rw [htp]; intro n hn; rw [hother n (by rintro rfl; exact hntp hn)]; exact hT.lifeTp n hn
  · rw [hh']; intro h hm hl'
    rw [hI.keptLaunched h hm] at hl'; cases hl'
  · rw [hh', hw]; intro h hm hl'
    rw [hother _ (hne h hm)]; exact .inl (hT.life_launched (by rw [hp]; rfl) (hks h hm) hl')
  · rw [her]; intro r hr; rw [hother _ (hnrec r hr)]; exact hT.lifeRec r hr
  · intro n hn
    by_cases hns : n = sl.h.node
    · subst hns
      right
      refine ⟨hI.handle_node hmem, ?_⟩
      rw [htr, life_append, hlife0]; simp [life, tagOf]
    · rw [hother n hns]
      apply hT.lifeOther
      intro hc; apply hn
      unfold allNodes at hc ⊢
      rw [hh] at hc; rw [hh', htp]
      simp only [List.map_append, List.mem_append, recNodes, her, List.map_cons, List.map_nil,
        List.mem_singleton] at hc ⊢
      rcases hc with ((hc | hc) | hc) | hc
      · exact .inl (.inl hc)
      · exact absurd hc hns
      · exact .inl (.inr hc)
      · exact .inr hc
  · exact pro_append hT.pro (evs := [.beforeRun s.erec sl.h.node])
      htr (.inl (by simp [hp, noPro, visPhases])) (by simp [proEv])
  · have := hT.slots; rw [ht] at this; subst hs'; simp at this ⊢; omega
  · intro h1
    obtain ⟨r1, r2⟩ := hT.refs h1
    subst hs'
    exact ⟨by simp, r2⟩
  · rw [hph]; simp [Phase.active]
  · intro er hm; rw [htr] at hm; simp [hna er] at hm
  · rw [hph]; simp
  · rw [hph]; simp

/-- A job is started on the control thread in a good moment. -/
theorem guard_begin0 {C : Cfg} {s : St} (hI : Inv C s) (hT : TInv C s) {d : Bool}
    (hp : s.phase = .clean d) (h0 : C.threadCount = 0)
    {sl : Slot} {rest : List Slot} (ht : s.todo = sl :: rest)
    (hinv : s.flags.inval sl.h.node = .invalid)
    (hnf : ∀ m, HasEdge C.dag .requires sl.h.node m → s.flags.failed m = false) :
    Guard C (s.trace ++ [.beforeRun s.erec sl.h.node]) (.jobBegin sl.h.node true) := by
  have hact : s.phase.active = true := by rw [hp]; rfl
  have hmem : sl.h ∈ handles s := Inv.slot_mem ht
  have hna := no_afterExec hT (.inl (by rw [hp]; simp [visPhases]))
  have hrec : recsOf (s.trace ++ [.beforeRun s.erec sl.h.node]) = recsOf s.trace := by
    rw [recsOf_append]; simp [recsOf]
  have hrun : ∀ m, ¬ Running (s.trace ++ [.beforeRun s.erec sl.h.node]) m := by
    intro m hm
    apply no_running_seq hI hT h0 (n := m)
    simpa [Running, JobBegan, JobEnded] using hm
  have hpre : ∀ m, AfterEdge C.dag sl.h.node m →
      Recorded (s.trace ++ [.beforeRun s.erec sl.h.node]) m := by
    intro m hm
    rw [Recorded, hrec]
    exact recorded_of_done hI hT (hI.preds _ hmem m hm)
  refine ⟨?_, by simp [h0], hpre, ?_, ?_, ?_, ?_⟩
  · intro er hm; simp [hna er] at hm
  · exact fun m hm => absurd hm (hrun m)
  · intro l _ hall
    cases l with
    | nil => simp; omega
    | cons m l => exact absurd (hall m (by simp)) (hrun m)
  · by_contra hs
    rw [((hI.invalActive hact) _ (hI.handle_node hmem)).2 hs] at hinv; cases hinv
  · intro m h1 h2
    obtain ⟨r, hr, hrm⟩ := hpre m h2
    refine ⟨r, hr, hrm, ?_⟩
    rw [hrec, hT.recs] at hr
    have hf := hnf m h1
    cases hst : r.status <;> simp
    · have := (hI.failedIff m).2 ⟨r, hr, hrm, by simp [hst, badStatus]⟩
      rw [hf] at this; cases this
    · have := (hI.failedIff m).2 ⟨r, hr, hrm, by simp [hst, badStatus]⟩
      rw [hf] at this; cases this

theorem TInv.deferredUB {C : Cfg} {s : St} (hI : Inv C s) (hT : TInv C s) {d : Bool}
    (hp : s.phase = .clean d) (h0 : C.threadCount = 0)
    {sl : Slot} {rest : List Slot} (ht : s.todo = sl :: rest) (hl : sl.h.launched = false)
    (hinv : s.flags.inval sl.h.node = .invalid)
    (hnf : ∀ m, HasEdge C.dag .requires sl.h.node m → s.flags.failed m = false) :
    TInv C { s with
      flags := { s.flags with started := setFlag s.flags.started sl.h.node }
      used := s.used ++ C.resources sl.h.node
      trace := s.trace ++ [.beforeRun s.erec sl.h.node] ++ [.jobBegin sl.h.node true] ++
        [.jobEnd sl.h.node]
      phase := .ub } := by
  have hrest := hI.fresh_last ht hl
  subst hrest
  have hmem : sl.h ∈ handles s := Inv.slot_mem ht
  have hna := no_afterExec hT (.inl (by rw [hp]; simp [visPhases]))
  have hh : handles s = s.kept ++ [sl.h] := by simp [handles, ht]
  generalize hs' : ({ s with
      flags := { s.flags with started := setFlag s.flags.started sl.h.node }
      used := s.used ++ C.resources sl.h.node
      trace := s.trace ++ [.beforeRun s.erec sl.h.node] ++ [.jobBegin sl.h.node true] ++
        [.jobEnd sl.h.node]
      phase := .ub } : St) = s'
  have hh' : handles s' = handles s := by subst hs'; simp [handles]
  have htr : s'.trace = s.trace ++ [.beforeRun s.erec sl.h.node] ++ [.jobBegin sl.h.node true] ++
        [.jobEnd sl.h.node] := by subst hs'; rfl
  have her : s'.erec = s.erec := by subst hs'; rfl
  have hw : s'.worker = s.worker := by subst hs'; rfl
  have htp : s'.toProcess = s.toProcess := by subst hs'; rfl
  have ha : allNodes s' = allNodes s := by
    unfold allNodes; rw [hh', htp]; simp [recNodes, her]
  have hph : s'.phase = .ub := by subst hs'; rfl
  have hnd := hI.nodup
  unfold allNodes at hnd
  rw [List.append_assoc, List.nodup_append] at hnd
  have hhnd := hnd.1
  have hne : ∀ h ∈ s.kept, h.node ≠ sl.h.node := by
    intro h hm heq
    rw [hh, List.map_append, List.nodup_append] at hhnd
    exact hhnd.2.2 h.node (List.mem_map_of_mem hm) sl.h.node (by simp) heq
  have hntp : sl.h.node ∉ s.toProcess := fun hc =>
    hnd.2.2 sl.h.node (List.mem_map_of_mem hmem) sl.h.node (by simp [hc]) rfl
  have hnrec : ∀ r ∈ s.erec.runs, r.node ≠ sl.h.node := fun r hr hc =>
    hnd.2.2 sl.h.node (List.mem_map_of_mem hmem) r.node
      (List.mem_append_left _ (List.mem_map_of_mem (f := RunRecord.node) hr)) hc.symm
  have hother : ∀ m, m ≠ sl.h.node → life m s'.trace = life m s.trace := by
    intro m hm; rw [htr]; simp only [life_append]; simp [life, tagOf, hm.symm]
  have hlife0 : life sl.h.node s.trace = [] := by
    exact hT.life_fresh (by rw [hp]; rfl) hmem hl
  have hcase : ∀ h ∈ handles s, h ∈ s.kept ∨ h = sl.h := by
    intro h hm; rw [hh] at hm; simpa using hm
  constructor
  · rw [htr]
    refine always_snoc (always_snoc (always_snoc hT.always (guard_before hI hT hp ht hl))
      (guard_begin0 hI hT hp h0 ht hinv hnf)) ⟨?_, trivial⟩
    intro er hm; simp [hna er] at hm
  · rw [htr, her]; simp only [recsOf_append]; rw [hT.recs]; simp [recsOf]
  · rw [htp]; intro n hn; rw [hother n (by rintro rfl; exact hntp hn)]; exact hT.lifeTp n hn
  · rw [hh']; intro h hm hl'
    rcases hcase h hm with h1 | rfl
    · rw [hI.keptLaunched h h1] at hl'; cases hl'
    · right; refine ⟨by rw [hph]; rfl, .inr ⟨h0, .inl ?_⟩⟩
      rw [htr]; simp only [life_append, hlife0]; simp [life, tagOf]
  · rw [hh', hw]; intro h hm hl'
    rcases hcase h hm with h1 | rfl
    · rw [hother _ (hne h h1)]; exact .inl (hT.life_launched (by rw [hp]; rfl) hm hl')
    · rw [hl] at hl'; cases hl'
  · rw [her]; intro r hr; rw [hother _ (hnrec r hr)]; exact hT.lifeRec r hr
  · rw [ha]; intro n hn
    rw [hother]
    · exact hT.lifeOther n hn
    · rintro rfl; apply hn; unfold allNodes; simp only [List.mem_append]
      exact .inl (.inl (List.mem_map_of_mem hmem))
  · exact pro_append hT.pro
      (evs := [.beforeRun s.erec sl.h.node, .jobBegin sl.h.node true, .jobEnd sl.h.node])
      (by rw [htr]; simp) (.inl (by simp [hp, noPro, visPhases])) (by simp [proEv])
  · have := hT.slots; subst hs'; exact this
  · have := hT.refs; subst hs'; exact this
  · rw [hph]; simp [Phase.active]
  · intro er hm; rw [htr] at hm; simp [hna er] at hm
  · rw [hph]; simp
  · rw [hph]; simp

theorem TInv.startRun {C : Cfg} {s : St} (hI : Inv C s) (hT : TInv C s) {d : Bool}
    (hp : s.phase = .clean d)
    {sl : Slot} {rest : List Slot} (ht : s.todo = sl :: rest) (hl : sl.h.launched = false)
    (ok : Bool) : TInv C (Joque.startRun C s ok sl.ref sl.h rest) := by
  have hact : s.phase.active = true := by rw [hp]; rfl
  have hmem : sl.h ∈ handles s := Inv.slot_mem ht
  have hna := no_afterExec hT (.inl (by rw [hp]; simp [visPhases]))
  have hlife0 : life sl.h.node s.trace = [] := by
    exact hT.life_fresh (by rw [hp]; rfl) hmem hl
  have hg1 : ∀ e pre post, [Event.beforeRun s.erec sl.h.node] =
        pre ++ e :: post → Guard C (s.trace ++ pre) e := by
    intro e pre post heq
    rcases List.append_eq_singleton_iff.1 heq.symm with ⟨rfl, h⟩ | ⟨_, h⟩
    · simp at h; obtain ⟨rfl, rfl⟩ := h
      simp only [List.append_nil]
      exact guard_before hI hT hp ht hl
    · simp at h
  unfold Joque.startRun
  simp only
  split
  · rename_i hc
    rcases hI.inval_known hact (hI.handle_node hmem) with h | h <;> rw [h] at hc <;> cases hc
  · split
    · refine hT.complete hI hp ht (r := _) (by rfl) (evs := [.beforeRun s.erec sl.h.node])
        rfl rfl rfl rfl rfl rfl rfl rfl ?_ ?_ rfl (by simp [proEv]) (by simp) (by simp [hl]) hg1
      · intro m hm; simp [life, tagOf, hm.symm]
      · rw [hlife0]; simp [life, tagOf, recLife]
    · rename_i hdf
      have hdf' : ¬ anyDepFailed s.flags (C.dag.outEdges sl.h.node) = true := hdf
      rw [anyDepFailed_iff] at hdf'
      have hnf : ∀ m, HasEdge C.dag .requires sl.h.node m → s.flags.failed m = false := by
        intro m hm
        cases h : s.flags.failed m
        · rfl
        · exact absurd ⟨m, hm, h⟩ hdf'
      split
      · refine hT.complete hI hp ht (r := _) (by rfl) (evs := [.beforeRun s.erec sl.h.node])
          rfl rfl rfl rfl rfl rfl rfl rfl ?_ ?_ rfl (by simp [proEv]) (by simp) (by simp [hl]) hg1
        · intro m hm; simp [life, tagOf, hm.symm]
        · rw [hlife0]; simp [life, tagOf, recLife]
      · rename_i hv
        have hinv : s.flags.inval sl.h.node = .invalid := by
          rcases hI.inval_known hact (hI.handle_node hmem) with h | h
          · exact h
          · exact absurd h hv
        split
        · rename_i h0
          have hg2 : ∀ e pre post, [Event.beforeRun s.erec sl.h.node] ++
              [.jobBegin sl.h.node true] ++ [.jobEnd sl.h.node] ++
              [.runLog sl.h.node (asyncLambda (C.outcome sl.h.node)).log] =
              pre ++ e :: post → Guard C (s.trace ++ pre) e := by
            have : Always (Guard C) (s.trace ++ ([Event.beforeRun s.erec sl.h.node] ++
              [.jobBegin sl.h.node true] ++ [.jobEnd sl.h.node] ++
              [.runLog sl.h.node (asyncLambda (C.outcome sl.h.node)).log])) := by
              simp only [← List.append_assoc]
              refine always_snoc (always_snoc (always_snoc (always_snoc hT.always
                (guard_before hI hT hp ht hl))
                (guard_begin0 hI hT hp h0 ht hinv hnf)) ⟨?_, trivial⟩) ⟨?_, trivial⟩
              · intro er hm; simp [hna er] at hm
              · intro er hm; simp [hna er] at hm
            intro e pre post heq
            apply this (s.trace ++ pre) e post
            rw [heq]; simp
          unfold Joque.collect
          simp only
          split
          · exact hT.deferredUB hI hp h0 ht hl hinv hnf
          · rename_i rc hrc
            by_cases hr0 : rc = 0
            · simp only [hr0, ne_eq, not_true_eq_false, ↓reduceIte]
              refine hT.complete hI hp ht (r := _) (by rfl) (evs := _)
                rfl rfl rfl rfl rfl rfl rfl (by simp only [Joque.complete, St.emit, List.append_assoc]) ?_ ?_ ?_ ?_ ?_ (by simp [hl]) hg2
              · intro m hm; simp [life, tagOf, hm.symm]
              · rw [hlife0]; simp [life, tagOf, recLife, h0]
              · simp [recsOf]
              · simp [proEv]
              · simp
            · simp only [hr0, ne_eq, not_false_eq_true, ↓reduceIte]
              refine hT.complete hI hp ht (r := _) (by rfl) (evs := _)
                rfl rfl rfl rfl rfl rfl rfl (by simp only [Joque.complete, St.emit, List.append_assoc]) ?_ ?_ ?_ ?_ ?_ (by simp [hl]) hg2
              · intro m hm; simp [life, tagOf, hm.symm]
              · rw [hlife0]; simp [life, tagOf, recLife, h0]
              · simp [recsOf]
              · simp [proEv]
              · simp
        · split
          · exact hT.launch hI hp ht hl
          · exact hT.asyncFail hI hp ht hl

end Joque
