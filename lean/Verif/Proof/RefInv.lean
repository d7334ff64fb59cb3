import Verif.Proof.TraceInv3

/-! # Node references of `run_coro` objects, and what the times of a record enclose -/

namespace Joque

/-- all `node_` references in the vector -/
def refsOf (s : St) : List Node := s.passed ++ s.todo.map Slot.ref

/-- every DEPF record has a bad one of a required task before it -/
def WhyDepf (g : Dag) (runs : List RunRecord) : Prop :=
  ∀ pre r post, runs = pre ++ r :: post → r.status = .depf →
    ∃ r2 ∈ pre, HasEdge g .requires r.node r2.node ∧ badStatus r2.status = true

theorem whyDepf_nil (g : Dag) : WhyDepf g [] := by
  intro pre r post h; simp at h

theorem WhyDepf.snoc {g : Dag} {runs : List RunRecord} (h : WhyDepf g runs) {r : RunRecord}
    (hr : r.status = .depf → ∃ r2 ∈ runs, HasEdge g .requires r.node r2.node ∧
      badStatus r2.status = true) : WhyDepf g (runs ++ [r]) := by
  intro pre x post he hx
  rcases List.eq_nil_or_concat post with rfl | ⟨p, y, rfl⟩
  · obtain ⟨rfl, h2⟩ := List.append_inj' he rfl
    simp only [List.cons.injEq, and_true] at h2
    subst h2
    exact hr hx
  · have : runs ++ [r] = (pre ++ x :: p) ++ [y] := by rw [he]; simp
    obtain ⟨h1, _⟩ := List.append_inj' this rfl
    exact h pre x p h1 hx

structure RefInv (C : Cfg) (s : St) : Prop where
  refs : ∀ n ∈ refsOf s, n ∈ C.dag.nodes
  seen : ∀ er r n, .afterRun er r n ∈ s.trace → n ∈ C.dag.nodes
  start : ∀ h ∈ handles s, h.launched = true → h.start ≤ s.trace.length ∧
    ∀ b, .jobBegin h.node b ∉ s.trace.take h.start
  recs : ∀ r ∈ s.erec.runs, r.start ≤ s.trace.length ∧ r.end ≤ s.trace.length ∧
    (r.status = .ok ∨ r.status = .fail →
      (∀ b, .jobBegin r.node b ∉ s.trace.take r.start) ∧ .jobEnd r.node ∈ s.trace.take r.end)
  why : WhyDepf C.dag s.erec.runs

theorem RefInv.mono {C : Cfg} {s s' : St} (h : RefInv C s) {evs : List Event}
    (ht : s'.trace = s.trace ++ evs) (hev : ∀ er r n, .afterRun er r n ∉ evs)
    (hh : ∀ x ∈ handles s', x.launched = true → x ∈ handles s)
    (hr : ∀ n ∈ refsOf s', n ∈ refsOf s ∨ n ∈ C.dag.nodes)
    (he : s'.erec.runs = s.erec.runs) : RefInv C s' := by
  refine ⟨fun n hn => ?_, fun er r n hm => ?_, fun x hx hl => ?_, fun r hrm => ?_,
    by rw [he]; exact h.why⟩
  · rcases hr n hn with h1 | h1
    · exact h.refs n h1
    · exact h1
  · rw [ht] at hm
    rcases List.mem_append.1 hm with h1 | h1
    · exact h.seen er r n h1
    · exact absurd h1 (hev er r n)
  · obtain ⟨h1, h2⟩ := h.start x (hh x hx hl) hl
    rw [ht, List.take_append_of_le_length h1, List.length_append]
    exact ⟨Nat.le_trans h1 (Nat.le_add_right _ _), h2⟩
  · rw [he] at hrm
    obtain ⟨h1, h2, h3⟩ := h.recs r hrm
    rw [ht, List.take_append_of_le_length h1, List.take_append_of_le_length h2,
      List.length_append]
    exact ⟨Nat.le_trans h1 (Nat.le_add_right _ _), Nat.le_trans h2 (Nat.le_add_right _ _), h3⟩

/-- the first element of `todo` ends -/
theorem RefInv.complete {C : Cfg} {s s0 : St} (h : RefInv C s) {sl : Slot} {rest : List Slot}
    (hs : s.todo = sl :: rest) {evs : List Event} (ht : s0.trace = s.trace ++ evs)
    (hev : ∀ er r n, .afterRun er r n ∉ evs)
    (hk : s0.kept = s.kept) (hp : s0.passed = s.passed) (he : s0.erec.runs = s.erec.runs)
    {r : RunRecord} (r1 : r.start ≤ s.trace.length) (r2 : r.end ≤ s0.trace.length)
    (r3 : r.status = .ok ∨ r.status = .fail →
      (∀ b, .jobBegin r.node b ∉ s.trace.take r.start) ∧ .jobEnd r.node ∈ s0.trace.take r.end)
    (r4 : r.status = .depf → ∃ r2 ∈ s.erec.runs, HasEdge C.dag .requires r.node r2.node ∧
      badStatus r2.status = true) :
    RefInv C (Joque.complete s0 sl.ref rest r) := by
  have href : sl.ref ∈ C.dag.nodes := h.refs _ (by simp [refsOf, hs])
  have htr : (Joque.complete s0 sl.ref rest r).trace =
      s.trace ++ evs ++ [.afterRun s0.erec r sl.ref] := by
    show s0.trace ++ _ = _
    rw [ht]
  have hruns : (Joque.complete s0 sl.ref rest r).erec.runs = s.erec.runs ++ [r] := by
    show s0.erec.runs ++ [r] = _
    rw [he]
  refine ⟨fun n hn => ?_, fun er r' n hm => ?_, fun x hx hl => ?_, fun r' hrm => ?_,
    by rw [hruns]; exact h.why.snoc r4⟩
  · unfold refsOf at hn
    have h1 : (Joque.complete s0 sl.ref rest r).passed = s.passed ++ [sl.ref] := by
      show s0.passed ++ _ = _; rw [hp]
    have h2 : (Joque.complete s0 sl.ref rest r).todo = rest := rfl
    rw [h1, h2] at hn
    apply h.refs
    simpa [refsOf, hs] using hn
  · rw [htr] at hm
    rcases List.mem_append.1 hm with h1 | h1
    · rcases List.mem_append.1 h1 with h1 | h1
      · exact h.seen er r' n h1
      · exact absurd h1 (hev er r' n)
    · simp only [List.mem_singleton, Event.afterRun.injEq] at h1
      rw [h1.2.2]; exact href
  · have hx' : x ∈ handles s := by
      unfold handles at hx ⊢
      have h1 : (Joque.complete s0 sl.ref rest r).kept = s.kept := hk
      have h2 : (Joque.complete s0 sl.ref rest r).todo = rest := rfl
      rw [h1, h2] at hx
      rw [hs]
      rcases List.mem_append.1 hx with hx | hx
      · exact List.mem_append_left _ hx
      · exact List.mem_append_right _ (List.mem_cons_of_mem _ hx)
    obtain ⟨h1, h2⟩ := h.start x hx' hl
    rw [htr, List.append_assoc, List.take_append_of_le_length h1, List.length_append]
    exact ⟨Nat.le_trans h1 (Nat.le_add_right _ _), h2⟩
  · rw [hruns] at hrm
    rcases List.mem_append.1 hrm with hrm | hrm
    · obtain ⟨h1, h2, h3⟩ := h.recs r' hrm
      rw [htr, List.append_assoc, List.take_append_of_le_length h1,
        List.take_append_of_le_length h2, List.length_append]
      exact ⟨Nat.le_trans h1 (Nat.le_add_right _ _), Nat.le_trans h2 (Nat.le_add_right _ _), h3⟩
    · rw [List.mem_singleton.1 hrm]
      have hr2' : r.end ≤ (s.trace ++ evs).length := by rw [← ht]; exact r2
      rw [htr, List.take_append_of_le_length hr2', List.append_assoc,
        List.take_append_of_le_length r1, List.length_append]
      refine ⟨Nat.le_trans r1 (Nat.le_add_right _ _), ?_, fun hst => ?_⟩
      · rw [← List.length_append, ← List.append_assoc, List.length_append]
        exact Nat.le_trans hr2' (Nat.le_add_right _ _)
      · rw [← ht]; exact r3 hst

theorem RefInv.collect {C : Cfg} {s s0 : St} (h : RefInv C s) {sl : Slot} {rest : List Slot}
    (hs : s.todo = sl :: rest) {evs : List Event} (ht : s0.trace = s.trace ++ evs)
    (hev : ∀ er r n, .afterRun er r n ∉ evs)
    (hk : s0.kept = s.kept) (hp : s0.passed = s.passed) (he : s0.erec = s.erec)
    (htd : s0.todo = s.todo) {hd : Handle} (r1 : hd.start ≤ s.trace.length)
    (r2 : ∀ b, .jobBegin hd.node b ∉ s.trace.take hd.start) (r3 : .jobEnd hd.node ∈ s0.trace) :
    RefInv C (Joque.collect C s0 sl.ref hd rest) := by
  unfold Joque.collect
  dsimp only
  split
  · refine h.mono (evs := evs) ht hev ?_ ?_ (by rw [he])
    · intro x hx _
      unfold handles at hx ⊢
      rwa [hk, htd] at hx
    · intro n hn'
      left
      unfold refsOf at hn' ⊢
      rwa [hp, htd] at hn'
  · rename_i rc hrc
    have key : ∀ s1 : St, s1.trace = s0.trace ++ [.runLog hd.node (asyncLambda (C.outcome hd.node)).log] →
        s1.kept = s0.kept → s1.passed = s0.passed → s1.erec = s0.erec → ∀ r : RunRecord,
        r.node = hd.node → r.start = hd.start → r.end = s1.trace.length → r.status ≠ .depf →
        RefInv C (Joque.complete s1 sl.ref rest r) := by
      intro s1 e1 e2 e3 e4 r n1 n2 n3 n4
      refine h.complete hs (evs := evs ++ [.runLog hd.node (asyncLambda (C.outcome hd.node)).log])
        (by rw [e1, ht, List.append_assoc]) ?_ (by rw [e2, hk]) (by rw [e3, hp])
        (by rw [e4, he]) (by rw [n2]; exact r1) (Nat.le_of_eq n3) ?_ (fun hc => absurd hc n4)
      · intro er r' n hm
        rcases List.mem_append.1 hm with hm | hm
        · exact hev er r' n hm
        · simp at hm
      · intro _
        rw [n1, n2, n3, List.take_length]
        refine ⟨r2, ?_⟩
        rw [e1]; exact List.mem_append_left _ r3
    split
    · refine key _ ?_ ?_ ?_ ?_ _ ?_ ?_ ?_ ?_ <;> first | rfl | skip
      simp
    · refine key _ ?_ ?_ ?_ ?_ _ ?_ ?_ ?_ ?_ <;> first | rfl | skip
      simp

theorem refInv_ctl {C : Cfg} (hwf : C.dag.WF) {s : St} (hI : Inv C s) (hT : TInv C s)
    (h : RefInv C s) (ok : Bool) : RefInv C (ctlStep C s ok) := by
  have quiet : ∀ s' : St, s'.trace = s.trace → s'.todo = s.todo → s'.kept = s.kept →
      s'.passed = s.passed → s'.erec = s.erec → RefInv C s' := by
    intro s' a b c d e
    refine h.mono (evs := []) (by rw [a, List.append_nil]) (by simp) ?_ ?_ (by rw [e])
    · intro x hx _; unfold handles at hx ⊢; rwa [b, c] at hx
    · intro n hn; left; unfold refsOf at hn ⊢; rwa [b, d] at hn
  have emit1 : ∀ (s' : St) (ev : Event), s'.trace = s.trace ++ [ev] →
      (∀ er r n, ev ≠ .afterRun er r n) → s'.todo = s.todo → s'.kept = s.kept →
      s'.passed = s.passed → s'.erec = s.erec → RefInv C s' := by
    intro s' ev a hev b c d e
    refine h.mono (evs := [ev]) a ?_ ?_ ?_ (by rw [e])
    · intro er r n hm; exact hev er r n (List.mem_singleton.1 hm).symm
    · intro x hx _; unfold handles at hx ⊢; rwa [b, c] at hx
    · intro n hn; left; unfold refsOf at hn ⊢; rwa [b, d] at hn
  unfold ctlStep
  cases hp : s.phase with
  | created =>
    dsimp only
    rw [hI.createdInit hp]
    obtain ⟨h1, h2, h3, h4, h5⟩ := prologue_todo (C := C)
    refine ⟨?_, ?_, ?_, ?_, by rw [h5]; exact whyDepf_nil _⟩
    · unfold refsOf; rw [h1, h3]; simp
    · intro er r n hm
      rcases prologue_events hwf _ hm with h | h <;> cases h
    · unfold handles; rw [h1, h2]; simp
    · rw [h5]; simp
  | loopTop =>
    dsimp only
    split
    · exact quiet _ rfl rfl rfl rfl rfl
    · exact emit1 _ (.onTick s.erec) rfl (by simp) rfl rfl rfl rfl
  | clean d =>
    dsimp only
    unfold cleanStep
    split
    · rename_i ht
      refine h.mono (evs := []) (by rw [List.append_nil]) (by simp) ?_ ?_ rfl
      · intro x hx _
        unfold handles at hx ⊢
        simp only [List.nil_append] at hx
        obtain ⟨sl, hsl, rfl⟩ := List.mem_map.1 hx
        refine List.mem_append_left _ ?_
        have h1 : (List.zipWith Slot.mk s.passed s.kept).map Slot.h = s.kept := by
          have hlen := hI.passedLen
          rw [List.map_zipWith]
          have : ∀ (a : List Node) (b : List Handle), b.length ≤ a.length →
              List.zipWith (fun _ y => y) a b = b := by
            intro a b
            induction b generalizing a with
            | nil => intro _; simp
            | cons y b ih =>
              intro hl
              cases a with
              | nil => simp at hl
              | cons x a => rw [List.zipWith_cons_cons, ih a (by simpa using hl)]
          exact this _ _ hlen
        rw [← h1]; exact List.mem_map_of_mem hsl
      · intro n hn
        left
        unfold refsOf at hn ⊢
        simp only [List.nil_append] at hn
        obtain ⟨sl, hsl, rfl⟩ := List.mem_map.1 hn
        refine List.mem_append_left _ ?_
        revert hsl
        generalize s.passed = a
        generalize s.kept = b
        induction a generalizing b with
        | nil => simp
        | cons x a ih =>
          cases b with
          | nil => simp
          | cons y b =>
            simp only [List.zipWith_cons_cons, List.mem_cons]
            rintro (rfl | hm)
            · exact .inl rfl
            · exact .inr (ih b hm)
    · rename_i sl rest ht
      have hmem : sl.h ∈ handles s := Inv.slot_mem ht
      split
      · rename_i hl
        have hl' : sl.h.launched = false := by simpa using hl
        have hlife0 : life sl.h.node s.trace = [] := by
          exact hT.life_fresh (by rw [hp]; rfl) hmem hl'
        have hnob : ∀ b, Event.jobBegin sl.h.node b ∉ s.trace := by
          intro b hb
          have : JobBegan s.trace sl.h.node := ⟨b, hb⟩
          rw [begin_mem_life, hlife0] at this
          obtain ⟨b, hb⟩ := this
          cases hb
        unfold Joque.startRun
        dsimp only
        split
        · exact quiet _ rfl rfl rfl rfl rfl
        · split
          · refine h.complete ht (evs := [.beforeRun s.erec sl.h.node]) ?_ ?_ ?_ ?_ ?_ ?_ ?_ ?_ ?_
            · rfl
            · simp
            · rfl
            · rfl
            · rfl
            · exact Nat.le_refl _
            · show s.trace.length ≤ (s.trace ++ _).length
              rw [List.length_append]; exact Nat.le_add_right _ _
            · intro hc; rcases hc with hc | hc <;> cases hc
            · intro _
              obtain ⟨m, hm1, hm2⟩ := anyDepFailed_iff.1 ‹anyDepFailed _ _ = true›
              obtain ⟨r2, q1, q2, q3⟩ := (hI.failedIff m).1 hm2
              exact ⟨r2, q1, by rw [q2]; exact hm1, q3⟩
          · split
            · refine h.complete ht (evs := [.beforeRun s.erec sl.h.node]) ?_ ?_ ?_ ?_ ?_ ?_ ?_ ?_ ?_
              · rfl
              · simp
              · rfl
              · rfl
              · rfl
              · exact Nat.le_refl _
              · show s.trace.length ≤ (s.trace ++ _).length
                rw [List.length_append]; exact Nat.le_add_right _ _
              · intro hc; rcases hc with hc | hc <;> cases hc
              · intro hc; cases hc
            · split
              · refine h.collect ht (evs := [.beforeRun s.erec sl.h.node, .jobBegin sl.h.node true,
                  .jobEnd sl.h.node]) ?_ ?_ ?_ ?_ ?_ ?_ ?_ ?_ ?_
                rotate_left
                · simp
                · rfl
                · rfl
                · rfl
                · rfl
                · exact Nat.le_refl _
                rotate_right
                · show s.trace ++ _ ++ _ ++ _ = _
                  simp only [List.append_assoc]; rfl
                · intro b
                  show _ ∉ s.trace.take s.trace.length
                  rw [List.take_length]; exact hnob b
                · show _ ∈ s.trace ++ _ ++ _ ++ [Event.jobEnd sl.h.node]
                  simp
              · split
                · refine ⟨?_, ?_, ?_, ?_, h.why⟩
                  · intro n hn
                    apply h.refs
                    unfold refsOf at hn ⊢
                    rw [ht]; exact hn
                  · intro er r n hm
                    have : Event.afterRun er r n ∈ s.trace ++ [.beforeRun s.erec sl.h.node] ++
                      [Event.launch sl.h.node] := hm
                    apply h.seen er r n
                    simpa using this
                  · intro x hx hxl
                    have htr : ∀ k ≤ s.trace.length,
                        (s.trace ++ [Event.beforeRun s.erec sl.h.node] ++
                          [Event.launch sl.h.node]).take k = s.trace.take k := by
                      intro k hk
                      rw [List.append_assoc, List.take_append_of_le_length hk]
                    have hx' : x = { sl.h with launched := true, start := s.trace.length } ∨
                        x ∈ handles s := by
                      unfold handles at hx ⊢
                      rw [ht]
                      rcases List.mem_append.1 hx with hx | hx
                      · exact .inr (List.mem_append_left _ hx)
                      · rw [List.map_cons] at hx
                        rcases List.mem_cons.1 hx with hx | hx
                        · exact .inl hx
                        · exact .inr (List.mem_append_right _ (List.mem_cons_of_mem _ hx))
                    show x.start ≤ (s.trace ++ [Event.beforeRun s.erec sl.h.node] ++
                      [Event.launch sl.h.node]).length ∧ ∀ b, Event.jobBegin x.node b ∉
                      (s.trace ++ [Event.beforeRun s.erec sl.h.node] ++
                        [Event.launch sl.h.node]).take x.start
                    rcases hx' with rfl | hx'
                    · dsimp only
                      rw [htr _ (Nat.le_refl _), List.take_length]
                      refine ⟨?_, hnob⟩
                      rw [List.append_assoc, List.length_append]; exact Nat.le_add_right _ _
                    · obtain ⟨h1, h2⟩ := h.start x hx' hxl
                      rw [htr _ h1]
                      refine ⟨Nat.le_trans h1 ?_, h2⟩
                      rw [List.append_assoc, List.length_append]; exact Nat.le_add_right _ _
                  · intro r hr
                    have hr' : r ∈ s.erec.runs := hr
                    obtain ⟨h1, h2, h3⟩ := h.recs r hr'
                    have htr : ∀ k ≤ s.trace.length,
                        (s.trace ++ [Event.beforeRun s.erec sl.h.node] ++
                          [Event.launch sl.h.node]).take k = s.trace.take k := by
                      intro k hk
                      rw [List.append_assoc, List.take_append_of_le_length hk]
                    have hlen : s.trace.length ≤ (s.trace ++ [Event.beforeRun s.erec sl.h.node] ++
                        [Event.launch sl.h.node]).length := by
                      rw [List.append_assoc, List.length_append]; exact Nat.le_add_right _ _
                    show r.start ≤ (s.trace ++ [Event.beforeRun s.erec sl.h.node] ++
                        [Event.launch sl.h.node]).length ∧ r.end ≤ (s.trace ++
                        [Event.beforeRun s.erec sl.h.node] ++ [Event.launch sl.h.node]).length ∧
                      (r.status = .ok ∨ r.status = .fail → (∀ b, Event.jobBegin r.node b ∉
                        (s.trace ++ [Event.beforeRun s.erec sl.h.node] ++
                          [Event.launch sl.h.node]).take r.start) ∧ Event.jobEnd r.node ∈
                        (s.trace ++ [Event.beforeRun s.erec sl.h.node] ++
                          [Event.launch sl.h.node]).take r.end)
                    rw [htr _ h1, htr _ h2]
                    exact ⟨Nat.le_trans h1 hlen, Nat.le_trans h2 hlen, h3⟩
                · refine h.mono (evs := [.beforeRun s.erec sl.h.node]) rfl (by simp) ?_ ?_ rfl
                  · intro x hx _
                    unfold handles at hx ⊢
                    rw [ht]
                    rcases List.mem_append.1 hx with hx | hx
                    · exact List.mem_append_left _ hx
                    · exact List.mem_append_right _ (List.mem_cons_of_mem _ hx)
                  · intro n hn
                    left
                    unfold refsOf at hn ⊢
                    rw [ht]
                    rcases List.mem_append.1 hn with hn | hn
                    · exact List.mem_append_left _ hn
                    · exact List.mem_append_right _ (List.mem_cons_of_mem _ hn)
      · rename_i hl
        have hl' : sl.h.launched = true := by simpa using hl
        split
        · rename_i hw
          obtain ⟨h1, h2⟩ := h.start _ hmem hl'
          refine h.collect ht (evs := []) (by rw [List.append_nil]) (by simp) rfl rfl rfl rfl
            h1 h2 ?_
          have hlife := hT.life_launched (by rw [hp]; rfl) hmem hl'
          rw [hw] at hlife
          have : JobEnded s.trace sl.h.node := by
            rw [end_mem_life, hlife]; decide
          exact this
        · refine h.mono (evs := []) (by rw [List.append_nil]) (by simp) ?_ ?_ rfl
          · intro x hx _
            unfold handles at hx ⊢
            rw [ht]
            simpa using hx
          · intro n hn
            left
            unfold refsOf at hn ⊢
            rw [ht]
            simpa using hn
  | pick =>
    dsimp only
    unfold pickStep
    split
    · exact quiet _ rfl rfl rfl rfl rfl
    · obtain ⟨r, hr, h4, _⟩ := findCandidate_spec (res := C.resources) (f := s.flags)
        (used := s.used) hwf hI.tp_nodes
      rw [hr]
      cases r with
      | none =>
        dsimp only
        split
        · exact quiet _ rfl rfl rfl rfl rfl
        · exact quiet _ rfl rfl rfl rfl rfl
      | some n =>
        dsimp only
        refine h.mono (evs := []) (by rw [List.append_nil]) (by simp) ?_ ?_ rfl
        · intro x hx hxl
          unfold handles at hx ⊢
          simp only [List.map_append, List.map_cons, List.map_nil] at hx
          rw [← List.append_assoc] at hx
          rcases List.mem_append.1 hx with hx | hx
          · exact hx
          · rw [List.mem_singleton.1 hx] at hxl; cases hxl
        · intro m hm
          unfold refsOf at hm ⊢
          simp only [List.map_append, List.map_cons, List.map_nil] at hm
          rw [← List.append_assoc] at hm
          rcases List.mem_append.1 hm with hm | hm
          · exact .inl hm
          · rw [List.mem_singleton.1 hm]; exact .inr (h4 n rfl).2
  | susp d => exact emit1 _ .resumed rfl (by simp) rfl rfl rfl rfl
  | drainTop =>
    dsimp only
    split
    · exact emit1 _ (.afterExecution s.erec) rfl (by simp) rfl rfl rfl rfl
    · exact quiet _ rfl rfl rfl rfl rfl
  | unwinding e =>
    dsimp only
    split
    · exact quiet _ rfl rfl rfl rfl rfl
    · exact h
  | destroying =>
    dsimp only
    split
    · exact quiet _ rfl rfl rfl rfl rfl
    · exact h
  | finished => exact quiet _ rfl rfl rfl rfl rfl
  | threw e => exact quiet _ rfl rfl rfl rfl rfl
  | destroyed => exact h
  | ub => exact h
  | abort => exact h
  | outOfFuel => exact h

theorem refInv_step {C : Cfg} (hwf : C.dag.WF) {s : St} (hI : Inv C s) (hT : TInv C s)
    (h : RefInv C s) (m : Move) : RefInv C (step C s m) := by
  have emit1 : ∀ (s' : St) (ev : Event), s'.trace = s.trace ++ [ev] →
      (∀ er r n, ev ≠ .afterRun er r n) → s'.todo = s.todo → s'.kept = s.kept →
      s'.passed = s.passed → s'.erec = s.erec → RefInv C s' := by
    intro s' ev a hev b c d e
    refine h.mono (evs := [ev]) a ?_ ?_ ?_ (by rw [e])
    · intro er r n hm; exact hev er r n (List.mem_singleton.1 hm).symm
    · intro x hx _; unfold handles at hx ⊢; rwa [b, c] at hx
    · intro n hn; left; unfold refsOf at hn ⊢; rwa [b, d] at hn
  cases m with
  | ctl => exact refInv_ctl hwf hI hT h true
  | ctlFail => exact refInv_ctl hwf hI hT h false
  | fault f =>
    show RefInv C (faultStep C s f)
    rcases fault_cases C s f with h1 | ⟨pre, er, r, ref, post, _, _, h3⟩ |
        ⟨pre, e, post, h1, h2, _, hna, h3⟩ | ⟨_, _, h3⟩
    · rw [h1]; exact refInv_ctl hwf hI hT h true
    · rw [h3]
      have h' := refInv_ctl hwf hI hT h true
      exact ⟨h'.refs, h'.seen, h'.start, h'.recs, h'.why⟩
    · rw [h3]
      refine h.mono (evs := pre ++ [e]) rfl ?_ (fun _ hx _ => hx) (fun _ hn => .inl hn) rfl
      intro er r n hm
      rcases List.mem_append.1 hm with hm | hm
      · by_cases hp : s.phase = .created
        · unfold ctlStep at h2
          rw [hp] at h2
          simp only at h2
          rw [hI.createdInit hp] at h2
          rcases prologue_events hwf (.afterRun er r n) (by rw [h2]; simp [hm]) with h | h
          · cases h
          · simp [proEv] at h
        · exact h1.no_after hp er r n hm
      · rw [List.mem_singleton] at hm
        exact hna er r n hm.symm
    · rw [h3]; exact ⟨h.refs, h.seen, h.start, h.recs, h.why⟩
  | begin n =>
    unfold step
    dsimp only
    split
    · exact h
    · split
      · exact emit1 _ (.jobBegin n false) rfl (by simp) rfl rfl rfl rfl
      · exact h
  | finish n =>
    unfold step
    dsimp only
    split
    · exact h
    · split
      · exact emit1 _ (.jobEnd n) rfl (by simp) rfl rfl rfl rfl
      · exact h
  | destroy =>
    show RefInv C (destroyStep s)
    unfold destroyStep
    split
    all_goals first
      | exact h
      | exact h.mono (evs := []) (by rw [List.append_nil]) (by simp) (fun _ hx _ => hx)
          (fun _ hn => .inl hn) rfl

theorem refInv_exec {C : Cfg} (hwf : C.dag.WF) (ms : List Move) : RefInv C (exec C ms) := by
  have : ∀ ms : List Move, (Inv C (exec C ms) ∧ TInv C (exec C ms)) ∧ RefInv C (exec C ms) :=
    fun ms => foldl_inv (P := fun s => (Inv C s ∧ TInv C s) ∧ RefInv C s)
      (fun _ m h => ⟨⟨inv_step hwf h.1.1 m, h.1.2.step hwf h.1.1 m⟩,
        refInv_step hwf h.1.1 h.1.2 h.2 m⟩) ms St.init
      ⟨⟨inv_init C, tinv_init C⟩, by
        refine ⟨?_, ?_, ?_, ?_, whyDepf_nil _⟩ <;> simp [St.init, refsOf, handles, ExecRecord.init]⟩
  exact (this ms).2

end Joque
