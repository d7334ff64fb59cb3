import Verif.Proof.Lockstep

/-! # Executions in which each job takes a given number of ticks -/

namespace Joque

variable {C : Cfg} {d : Node → Nat}

theorem split_twice {α : Type} {x : α} {l p q p' q' : List α} (h : l = p ++ x :: q) (h' : l = p' ++ x :: q') :
    p = p' ∨ (∃ y, p' = p ++ x :: y) ∨ ∃ y, p = p' ++ x :: y := by
  rw [h] at h'
  rcases List.append_eq_append_iff.1 h' with ⟨a, ha, hb⟩ | ⟨a, ha, hb⟩
  · cases a with
    | nil => left; simpa using ha.symm
    | cons y a =>
      simp only [List.cons_append, List.cons.injEq] at hb
      right; left
      exact ⟨a, by rw [ha, hb.1]⟩
  · cases a with
    | nil => left; simpa using ha
    | cons y a =>
      simp only [List.cons_append, List.cons.injEq] at hb
      right; right
      exact ⟨a, by rw [ha, hb.1]⟩

/-- a thread is created once -/
theorem launchedIn_unique {s : St} (hT : TInv C s) (ha : s.phase.active = true) {h : Handle}
    (hm : h ∈ handles s) (hl : h.launched = true) {j j' : Nat} (hj : LaunchedIn s.trace h.node j)
    (hj' : LaunchedIn s.trace h.node j') : j = j' := by
  have hlife := hT.life_launched ha hm hl
  have two : ∀ p y q : List Event, s.trace = p ++ .launch h.node :: y ++ .launch h.node :: q → False := by
    intro p y q e
    have hc : (life h.node s.trace).count .launch ≤ 1 := by
      rw [hlife]
      cases s.worker h.node <;> decide
    rw [e] at hc
    have h1 : ∀ a b, life h.node (a ++ b) = life h.node a ++ life h.node b := fun a b => List.filterMap_append
    have h2 : ∀ b, life h.node (.launch h.node :: b) = .launch :: life h.node b := fun b => by
      simp [life, tagOf]
    rw [h1, h1, h2, h2] at hc
    simp only [List.count_append, List.count_cons_self] at hc
    omega
  obtain ⟨p, q, e, rfl⟩ := hj
  obtain ⟨p', q', e', rfl⟩ := hj'
  rcases split_twice e e' with rfl | ⟨y, rfl⟩ | ⟨y, rfl⟩
  · rfl
  · exact (two _ _ _ e').elim
  · exact (two _ _ _ e).elim

theorem LaunchedIn.split {tr evs : List Event} {n : Node} {k : Nat} (h : LaunchedIn (tr ++ evs) n k) :
    LaunchedIn tr n k ∨ ∃ i, LaunchedIn evs n i ∧ k = tr.count .resumed + i := by
  obtain ⟨p, q, e, rfl⟩ := h
  rcases List.append_eq_append_iff.1 e with ⟨a, ha, hb⟩ | ⟨a, ha, hb⟩
  · exact .inr ⟨a.count .resumed, ⟨a, q, hb, rfl⟩, by rw [ha, List.count_append]⟩
  · cases a with
    | nil =>
      refine .inr ⟨0, ⟨[], q, by simpa using hb.symm, rfl⟩, ?_⟩
      rw [ha]; simp
    | cons y a =>
      simp only [List.cons_append, List.cons.injEq] at hb
      exact .inl ⟨p, a, by rw [ha, hb.1], rfl⟩

theorem LaunchedIn.mem {tr : List Event} {n : Node} {k : Nat} (h : LaunchedIn tr n k) : .launch n ∈ tr := by
  obtain ⟨p, q, rfl, _⟩ := h
  simp

theorem FoundIn.grow {tr ext : List Event} {n : Node} {k : Nat} (h : FoundIn tr n k) :
    FoundIn (tr ++ ext) n k := by
  obtain ⟨p, er, r, ref, q, rfl, h⟩ := h
  exact ⟨p, er, r, ref, q ++ ext, by simp, h⟩

/-- the number of the present tick -/
def St.tick (s : St) : Nat := s.trace.count .resumed

/-- so far every job has taken the given number of ticks -/
structure Metered (d : Node → Nat) (s : St) : Prop where
  due : ∀ h ∈ handles s, h.launched = true → ∀ j, LaunchedIn s.trace h.node j → s.tick ≤ j + d h.node
  later : ∀ h ∈ handles s, h.launched = true → (h ∈ s.kept ∨ s.phase = .pick ∨ ∃ b, s.phase = .susp b) →
    ∀ j, LaunchedIn s.trace h.node j → s.tick < j + d h.node
  ready : ∀ h ∈ handles s, h.launched = true → s.worker h.node = .finished →
    ∀ j, LaunchedIn s.trace h.node j → s.tick = j + d h.node
  found : ∀ n j, LaunchedIn s.trace n j → (∃ h ∈ handles s, h.launched = true ∧ h.node = n) ∨
    FoundIn s.trace n (j + d n)

/-- a portion that begins no tick and creates no thread -/
theorem Metered.mono {s s' : St} (hM : Metered d s) {evs : List Event} (ht : s'.trace = s.trace ++ evs)
    (hev : .resumed ∉ evs ∧ ∀ n, .launch n ∉ evs)
    (hh : ∀ h ∈ handles s', h.launched = true → h ∈ handles s)
    (hl : ∀ h ∈ handles s', h.launched = true → (h ∈ s'.kept ∨ s'.phase = .pick ∨ ∃ b, s'.phase = .susp b) →
      ∀ j, LaunchedIn s.trace h.node j → s.tick < j + d h.node)
    (hr : ∀ h ∈ handles s', h.launched = true → s'.worker h.node = .finished →
      ∀ j, LaunchedIn s.trace h.node j → s.tick = j + d h.node)
    (hf : ∀ h ∈ handles s, h.launched = true → h ∉ handles s' → ∀ j, LaunchedIn s.trace h.node j →
      FoundIn s'.trace h.node (j + d h.node)) : Metered d s' := by
  have e1 : s'.tick = s.tick := by
    unfold St.tick
    rw [ht, List.count_append, List.count_eq_zero.2 hev.1]
    rfl
  have e2 : ∀ n j, LaunchedIn s'.trace n j → LaunchedIn s.trace n j := by
    intro n j h
    rw [ht] at h
    rcases h.split with h | ⟨i, h, _⟩
    · exact h
    · exact absurd h.mem (hev.2 n)
  refine ⟨?_, ?_, ?_, ?_⟩
  · intro h hm hla j hj
    rw [e1]
    exact hM.due h (hh h hm hla) hla j (e2 _ _ hj)
  · intro h hm hla hk j hj
    rw [e1]
    exact hl h hm hla hk j (e2 _ _ hj)
  · intro h hm hla hw j hj
    rw [e1]
    exact hr h hm hla hw j (e2 _ _ hj)
  · intro n j hj
    rcases hM.found n j (e2 _ _ hj) with ⟨h, hm, hla, rfl⟩ | h
    · by_cases hm' : h ∈ handles s'
      · exact .inl ⟨h, hm', hla, rfl⟩
      · exact .inr (hf h hm hla hm' j (e2 _ _ hj))
    · exact .inr (by rw [ht]; exact h.grow)

theorem collect_trace {s : St} {ref : Node} {h : Handle} {rest : List Slot} {rc : Int}
    (hrc : (asyncLambda (C.outcome h.node)).retcode = some rc) : ∃ log r,
      (collect C s ref h rest).trace = s.trace ++ [.runLog h.node log, .afterRun s.erec r ref] ∧
      r.node = h.node ∧ (r.status = .ok ∨ r.status = .fail) := by
  refine ⟨(asyncLambda (C.outcome h.node)).log,
    { node := h.node, t := C.dag.task h.node, name := C.dag.name h.node
      status := if rc ≠ 0 then .fail else .ok
      retcode := rc, start := h.start
      «end» := (s.emit (.runLog h.node (asyncLambda (C.outcome h.node)).log)).now
      output := (asyncLambda (C.outcome h.node)).output }, ?_, rfl, ?_⟩
  · unfold collect
    simp only [hrc]
    simp only [complete, St.emit, St.now]
    split <;> simp
  · dsimp only; split <;> simp

/-- the slot that `cleanup_coros` has come to -/
theorem head_handles {s : St} {sl : Slot} {rest : List Slot} (ht : s.todo = sl :: rest) {h : Handle} :
    h ∈ handles s ↔ h = sl.h ∨ h ∈ s.kept ∨ h ∈ rest.map Slot.h := by
  simp only [handles, ht, List.map_cons, List.mem_append, List.mem_cons]
  tauto

theorem metered_clean (hG : Healthy C) {s : St} (hI : Inv C s) (hT : TInv C s) (hM : Metered d s) {b : Bool}
    (hp : s.phase = .clean b)
    (hnd : ∀ sl rest, s.todo = sl :: rest → sl.h.launched = true → s.worker sl.h.node ≠ .finished →
      ∀ j, LaunchedIn s.trace sl.h.node j → s.tick ≠ j + d sl.h.node) :
    Metered d (cleanStep C s true b) := by
  have hact : s.phase.active = true := by rw [hp]; rfl
  cases ht : s.todo with
  | nil =>
    have hz := zip_h (p := s.passed) (k := s.kept) hI.passedLen
    have hst : cleanStep C s true b = { s with
        todo := List.zipWith Slot.mk s.passed s.kept
        kept := []
        passed := []
        phase := if b then .susp true else .pick } := by
      unfold cleanStep; rw [ht]
    have hhd : ∀ h, h ∈ handles (cleanStep C s true b) ↔ h ∈ s.kept := by
      intro h; rw [hst]; simp [handles, hz]
    have hhs : ∀ h, h ∈ handles s ↔ h ∈ s.kept := by
      intro h; simp [handles, ht]
    refine hM.mono (evs := []) (by rw [hst]; simp) (by simp) ?_ ?_ ?_ ?_
    · intro h hm _; rw [hhs]; exact (hhd h).1 hm
    · intro h hm hl _
      exact hM.later h ((hhs h).2 ((hhd h).1 hm)) hl (.inl ((hhd h).1 hm))
    · intro h hm hl hw
      rw [hst] at hw
      exact hM.ready h ((hhs h).2 ((hhd h).1 hm)) hl hw
    · intro h hm _ hm'
      exact absurd ((hhd h).2 ((hhs h).1 hm)) hm'
  | cons sl rest =>
    have hmem : sl.h ∈ handles s := Inv.slot_mem ht
    have hn : sl.h.node ∈ C.dag.nodes := hI.handle_node hmem
    obtain ⟨rc, hrc⟩ := hG.code hn
    -- the task of the first slot is settled
    have settled : ∀ (s' : St) evs, s'.trace = s.trace ++ evs → (.resumed ∉ evs ∧ ∀ n, .launch n ∉ evs) →
        s'.kept = s.kept → s'.todo = rest → s'.worker = s.worker → s'.phase = s.phase →
        (sl.h.launched = true → ∀ j, LaunchedIn s.trace sl.h.node j →
          FoundIn s'.trace sl.h.node (j + d sl.h.node)) → Metered d s' := by
      intro s' evs h1 h2 h3 h4 h5 h6 h7
      have hhd : ∀ h, h ∈ handles s' ↔ h ∈ s.kept ∨ h ∈ rest.map Slot.h := by
        intro h; simp [handles, h3, h4]
      have hsub : ∀ h ∈ handles s', h ∈ handles s := fun h hm =>
        (head_handles ht).2 (.inr ((hhd h).1 hm))
      refine hM.mono h1 h2 (fun h hm _ => hsub h hm) ?_ ?_ ?_
      · intro h hm hl hk
        refine hM.later h (hsub h hm) hl ?_
        rw [h3, h6] at hk
        exact hk
      · intro h hm hl hw
        rw [h5] at hw
        exact hM.ready h (hsub h hm) hl hw
      · intro h hm hl hm' j hj
        rcases (head_handles ht).1 hm with rfl | hm
        · exact h7 hl j hj
        · exact absurd ((hhd h).2 hm) hm'
    -- a thread is created
    have launched : ∀ (s' : St) x, x.node = sl.h.node → x.launched = true →
        s'.trace = s.trace ++ [.beforeRun s.erec sl.h.node, .launch sl.h.node] → s'.kept = s.kept →
        s'.todo = ⟨sl.ref, x⟩ :: rest → s'.worker = setWorker s.worker sl.h.node .queued →
        s'.phase = s.phase → (∀ j, ¬ LaunchedIn s.trace sl.h.node j) → Metered d s' := by
      intro s' x hxn hxl h1 h2 h3 h4 h5 hno
      have hnd := hI.nodup
      unfold allNodes at hnd
      rw [List.append_assoc, List.nodup_append] at hnd
      have hnd := hnd.1
      simp only [handles, ht, List.map_append, List.map_cons] at hnd
      rw [List.nodup_append, List.nodup_cons] at hnd
      have hne : ∀ h, h ∈ s.kept ∨ h ∈ rest.map Slot.h → h.node ≠ sl.h.node := by
        rintro h (hk | hk)
        · exact hnd.2.2 h.node (List.mem_map_of_mem hk) sl.h.node (by simp)
        · intro he
          exact hnd.2.1.1 (by rw [← he]; exact List.mem_map_of_mem hk)
      have hhd : ∀ h, h ∈ handles s' ↔ h = x ∨ h ∈ s.kept ∨ h ∈ rest.map Slot.h := by
        intro h
        rw [head_handles h3, h2]
      have hold : ∀ h, h ∈ s.kept ∨ h ∈ rest.map Slot.h → h ∈ handles s := fun h hm =>
        (head_handles ht).2 (.inr hm)
      have e1 : s'.tick = s.tick := by simp [St.tick, h1]
      have e2 : ∀ n j, LaunchedIn s'.trace n j → LaunchedIn s.trace n j ∨ (n = sl.h.node ∧ j = s.tick) := by
        intro n j hj
        rw [h1] at hj
        rcases hj.split with hj | ⟨i, ⟨p, q, e, rfl⟩, rfl⟩
        · exact .inl hj
        · right
          rcases p with _ | ⟨a, _ | ⟨a', p⟩⟩
          · simp at e
          · simp at e
            exact ⟨e.2.1.symm, by simp [St.tick, ← e.1]⟩
          · simp at e
      have e3 : ∀ h, h ∈ s.kept ∨ h ∈ rest.map Slot.h → ∀ j, LaunchedIn s'.trace h.node j →
          LaunchedIn s.trace h.node j := by
        intro h hm j hj
        exact (e2 _ _ hj).resolve_right (fun e => hne h hm e.1)
      refine ⟨?_, ?_, ?_, ?_⟩
      · intro h hm hl j hj
        rw [e1]
        rcases (hhd h).1 hm with rfl | hm
        · rw [hxn] at hj ⊢
          rcases e2 _ _ hj with hj | ⟨_, rfl⟩
          · exact absurd hj (hno j)
          · omega
        · exact hM.due h (hold h hm) hl j (e3 h hm j hj)
      · intro h hm hl hk j hj
        rw [e1]
        have hk : h ∈ s.kept := by
          rw [h2, h5, hp] at hk
          rcases hk with hk | hk | ⟨_, hk⟩
          · exact hk
          · cases hk
          · cases hk
        exact hM.later h (hold h (.inl hk)) hl (.inl hk) j (e3 h (.inl hk) j hj)
      · intro h hm hl hw j hj
        rw [e1]
        rcases (hhd h).1 hm with rfl | hm
        · rw [h4, hxn] at hw
          simp [setWorker] at hw
        · rw [h4] at hw
          simp only [setWorker, if_neg (hne h hm)] at hw
          exact hM.ready h (hold h hm) hl hw j (e3 h hm j hj)
      · intro n j hj
        rcases e2 _ _ hj with hj | ⟨rfl, rfl⟩
        · rcases hM.found n j hj with ⟨h, hm, hl, rfl⟩ | hf
          · rcases (head_handles ht).1 hm with rfl | hm
            · exact absurd hj (hno j)
            · exact .inl ⟨h, (hhd h).2 (.inr hm), hl, rfl⟩
          · exact .inr (by rw [h1]; exact hf.grow)
        · exact .inl ⟨x, (hhd x).2 (.inl rfl), hxl, hxn⟩
    unfold cleanStep
    rw [ht]
    dsimp only
    split
    · rename_i hl
      have hl : sl.h.launched = false := by simpa using hl
      have hlife := hT.life_fresh hact hmem hl
      have hno : ∀ j, ¬ LaunchedIn s.trace sl.h.node j := by
        intro j hj
        have := launch_mem_life.1 hj.mem
        rw [hlife] at this
        cases this
      have h7 : ∀ s' : St, sl.h.launched = true → ∀ j, LaunchedIn s.trace sl.h.node j →
          FoundIn s'.trace sl.h.node (j + d sl.h.node) := fun _ h => by rw [hl] at h; cases h
      unfold startRun
      simp only
      rw [if_neg (by rcases hI.inval_known hact hn with h | h <;> rw [h] <;> simp)]
      split
      · exact settled _ [.beforeRun s.erec sl.h.node, .afterRun s.erec _ sl.ref]
          (by simp [complete, St.emit]; rfl) (by simp) rfl rfl rfl rfl (h7 _)
      · split
        · exact settled _ [.beforeRun s.erec sl.h.node, .afterRun s.erec _ sl.ref]
            (by simp [complete, St.emit]; rfl) (by simp) rfl rfl rfl rfl (h7 _)
        · split
          · obtain ⟨log, r, c0, -, -⟩ := collect_trace (C := C)
              (s := (({ s.emit (.beforeRun s.erec sl.h.node) with
                flags := { s.flags with started := setFlag s.flags.started sl.h.node }
                used := s.used ++ C.resources sl.h.node } : St).emit (.jobBegin sl.h.node true)).emit
                (.jobEnd sl.h.node)) (ref := sl.ref)
              (h := { sl.h with launched := true, start := s.now }) (rest := rest) hrc
            obtain ⟨c1, c2, c3, c4, c5, -⟩ := remaining_collect (C := C)
              (s := (({ s.emit (.beforeRun s.erec sl.h.node) with
                flags := { s.flags with started := setFlag s.flags.started sl.h.node }
                used := s.used ++ C.resources sl.h.node } : St).emit (.jobBegin sl.h.node true)).emit
                (.jobEnd sl.h.node)) (ref := sl.ref)
              (h := { sl.h with launched := true, start := s.now }) (rest := rest) hrc
            refine settled _ [.beforeRun s.erec sl.h.node, .jobBegin sl.h.node true, .jobEnd sl.h.node,
              .runLog sl.h.node log, .afterRun s.erec r sl.ref] ?_ (by simp) c2 c3 c4 c5 (h7 _)
            refine c0.trans ?_
            simp [St.emit]
          · rename_i h0
            simp only [if_true]
            exact launched _ { sl.h with launched := true, start := s.now } rfl rfl (by simp [St.emit]) rfl rfl
              rfl rfl hno
    · rename_i hl
      have hl : sl.h.launched = true := by simpa using hl
      split
      · rename_i hw
        obtain ⟨log, r, c0, c01, c02⟩ := collect_trace (C := C) (s := s) (ref := sl.ref) (h := sl.h) (rest := rest) hrc
        obtain ⟨c1, c2, c3, c4, c5, -⟩ := remaining_collect (C := C) (s := s) (ref := sl.ref)
          (h := sl.h) (rest := rest) hrc
        refine settled _ _ c0 (by simp) c2 c3 c4 c5 ?_
        intro _ j hj
        refine ⟨s.trace ++ [.runLog sl.h.node log], s.erec, r, sl.ref, [], by rw [c0]; simp, c01, c02, ?_⟩
        have := hM.ready sl.h hmem hl hw j hj
        rw [← this]
        simp [St.tick]
      · rename_i hw
        have hhd : ∀ h, h ∈ handles { s with kept := s.kept ++ [sl.h], passed := s.passed ++ [sl.ref], todo := rest }
            ↔ h ∈ handles s := by
          intro h
          rw [head_handles ht]
          simp only [handles, List.mem_append, List.mem_cons, List.not_mem_nil, or_false]
          tauto
        refine hM.mono (evs := []) (by simp) (by simp) ?_ ?_ ?_ ?_
        · intro h hm _; exact (hhd h).1 hm
        · intro h hm hla hk j hj
          have hm' := (hhd h).1 hm
          rcases hk with hk | hk | ⟨b', hk⟩
          · rcases List.mem_append.1 hk with hk | hk
            · exact hM.later h hm' hla (.inl hk) j hj
            · rw [List.mem_singleton] at hk
              subst hk
              have h1 := hM.due sl.h hm' hla j hj
              have h2 := hnd sl rest ht hl hw j hj
              omega
          · exact absurd (hk.symm.trans hp) (by simp)
          · exact absurd (hk.symm.trans hp) (by simp)
        · intro h hm hla hw'
          exact hM.ready h ((hhd h).1 hm) hla hw'
        · intro h hm _ hm'
          exact absurd ((hhd h).2 hm) hm'

theorem pick_handles {s : St} {h : Handle} (hm : h ∈ handles (pickStep C s)) (hl : h.launched = true) :
    h ∈ handles s := by
  revert hm
  unfold pickStep
  split
  · exact id
  · split
    · exact id
    · intro hm
      simp only [handles, List.map_append, List.map_cons, List.map_nil, List.mem_append, List.mem_cons,
        List.not_mem_nil, or_false] at hm ⊢
      rcases hm with hm | hm | hm
      · exact .inl hm
      · exact .inr hm
      · rw [hm] at hl; cases hl
    · split <;> exact id

theorem pick_handles' {s : St} {h : Handle} (hm : h ∈ handles s) : h ∈ handles (pickStep C s) := by
  revert hm
  unfold pickStep
  split
  · exact id
  · split
    · exact id
    · intro hm
      simp only [handles, List.map_append, List.mem_append] at hm ⊢
      tauto
    · split <;> exact id

/-- a portion of the control thread -/
theorem metered_ctl (hG : Healthy C) {s : St} (hI : Inv C s) (hT : TInv C s) (hM : Metered d s)
    (hact : s.phase.active = true) (hnf : s.phase ≠ .finished)
    (hnd : ∀ b sl rest, s.phase = .clean b → s.todo = sl :: rest → sl.h.launched = true →
      s.worker sl.h.node ≠ .finished → ∀ j, LaunchedIn s.trace sl.h.node j → s.tick ≠ j + d sl.h.node) :
    Metered d (ctlStep C s true) := by
  have quiet : ∀ (s' : St) evs, s'.trace = s.trace ++ evs → (.resumed ∉ evs ∧ ∀ n, .launch n ∉ evs) →
      s'.kept = s.kept → s'.todo = s.todo → s'.worker = s.worker → s'.phase ≠ .pick →
      (∀ b, s'.phase ≠ .susp b) → Metered d s' := by
    intro s' evs h1 h2 h3 h4 h5 h6 h7
    have e : handles s' = handles s := by simp [handles, h3, h4]
    refine hM.mono h1 h2 (fun h hm _ => by rw [← e]; exact hm) ?_ ?_ ?_
    · intro h hm hl hk
      rw [e] at hm
      refine hM.later h hm hl ?_
      rcases hk with hk | hk | ⟨b, hk⟩
      · rw [h3] at hk; exact .inl hk
      · exact absurd hk h6
      · exact absurd hk (h7 b)
    · intro h hm hl hw
      rw [e] at hm
      rw [h5] at hw
      exact hM.ready h hm hl hw
    · intro h hm _ hm'
      rw [e] at hm'
      exact absurd hm hm'
  unfold ctlStep
  split <;> rename_i hp <;> (try (rw [hp] at hact; cases hact; done))
  · split
    · exact quiet _ [] (by simp) (by simp) rfl rfl rfl (by simp) (by simp)
    · exact quiet _ [.onTick s.erec] rfl (by simp) rfl rfl rfl (by simp) (by simp)
  · exact metered_clean hG hI hT hM hp (fun sl rest => hnd _ sl rest hp)
  · obtain ⟨c1, c2, c3, c4, _⟩ := pick_cases hG hI hp
    refine hM.mono (evs := []) (by rw [c2]; simp) (by simp) (fun h hm hl => pick_handles hm hl) ?_ ?_ ?_
    · intro h hm hl _
      exact hM.later h (pick_handles hm hl) hl (.inr (.inl hp))
    · intro h hm hl hw
      rw [c4] at hw
      exact hM.ready h (pick_handles hm hl) hl hw
    · intro h hm _ hm'
      exact absurd (pick_handles' hm) hm'
  · rename_i b
    -- the next tick
    have e0 : ∀ n j, LaunchedIn (s.trace ++ [.resumed]) n j → LaunchedIn s.trace n j := by
      intro n j hj
      rcases hj.split with hj | ⟨i, hj, _⟩
      · exact hj
      · have := hj.mem
        simp at this
    have e1 : ∀ p : Phase, ({ s.emit .resumed with phase := p } : St).tick = s.tick + 1 := by
      intro p; simp [St.tick, St.emit]
    have hno : ∀ h ∈ handles s, h.launched = true → s.worker h.node ≠ .finished := by
      intro h hm hl hw
      obtain ⟨p, q, hpq⟩ := List.append_of_mem (launched_event hT hact hm hl)
      have h1 := hM.ready h hm hl hw _ ⟨p, q, hpq, rfl⟩
      have h2 := hM.later h hm hl (.inr (.inr ⟨b, hp⟩)) _ ⟨p, q, hpq, rfl⟩
      omega
    have hk : s.kept = [] := (hI.notClean hact (by rw [hp]; rfl)).1
    refine ⟨?_, ?_, ?_, ?_⟩
    · intro h hm hl j hj
      rw [e1]
      exact hM.later h hm hl (.inr (.inr ⟨b, hp⟩)) j (e0 _ _ hj)
    · intro h hm hl hkk j hj
      rcases hkk with hkk | hkk | ⟨b', hkk⟩
      · have hkk : h ∈ s.kept := hkk
        rw [hk] at hkk; cases hkk
      · cases b <;> cases hkk
      · cases b <;> cases hkk
    · intro h hm hl hw
      exact absurd hw (hno h hm hl)
    · intro n j hj
      rcases hM.found n j (e0 _ _ hj) with h | h
      · exact .inl h
      · exact .inr h.grow
  · split
    · exact quiet _ [.afterExecution s.erec] rfl (by simp) rfl rfl rfl (by simp) (by simp)
    · exact quiet _ [] (by simp) (by simp) rfl rfl rfl (by simp) (by simp)
  · exact absurd hp hnf

/-- a thread goes on; a job ends when its time is over -/
theorem metered_worker {s : St} (hM : Metered d s) (n : Node) (m : Move)
    (hm : m = .begin n ∨ (m = .finish n ∧ ∀ j, LaunchedIn s.trace n j → s.tick = j + d n)) :
    Metered d (step C s m) := by
  have key : ∀ (e : Event) (w : Worker), e ≠ .resumed → (∀ k, e ≠ .launch k) →
      (w = .finished → ∀ j, LaunchedIn s.trace n j → s.tick = j + d n) →
      Metered d { s.emit e with worker := setWorker s.worker n w } := by
    intro e w h1 h2 h3
    refine hM.mono (evs := [e]) rfl ?_ (fun h hm _ => hm) ?_ ?_ ?_
    · refine ⟨by simpa using fun h => h1 h.symm, fun k => by simpa using fun h => h2 k h.symm⟩
    · intro h hm hl hk
      exact hM.later h hm hl hk
    · intro h hm hl hw j hj
      by_cases hn : h.node = n
      · rw [hn] at hj ⊢
        refine h3 ?_ j hj
        simpa [setWorker, hn] using hw
      · refine hM.ready h hm hl ?_ j hj
        simpa [setWorker, hn] using hw
    · intro h hm _ hm'
      exact absurd hm hm'
  rcases hm with rfl | ⟨rfl, hdue⟩ <;> simp only [step] <;> split
  · exact hM
  · split
    · exact key _ _ (by simp) (by simp) (by simp)
    · exact hM
  · exact hM
  · split
    · exact key _ _ (by simp) (by simp) (fun _ => hdue)
    · exact hM

/-- how far the control thread is from the end of the tick -/
def ticksLeft (s : St) : Nat :=
  match s.phase with
  | .loopTop => s.todo.length + 5
  | .drainTop => s.todo.length + 4
  | .clean _ => s.todo.length + 3
  | .pick => 2
  | .susp _ => 1
  | _ => 0

theorem leftover_ctl (hG : Healthy C) {s : St} (hI : Inv C s) (hact : s.phase.active = true)
    (hnf : s.phase ≠ .finished) (hr : ¬ remaining (ctlStep C s true) < remaining s) :
    ((ctlStep C s true).tick = s.tick ∧ ticksLeft (ctlStep C s true) < ticksLeft s) ∨
      (∃ b, s.phase = .susp b) ∧ (ctlStep C s true).tick = s.tick + 1 := by
  revert hr
  unfold ctlStep
  split <;> rename_i hp <;> (try (rw [hp] at hact; cases hact; done))
  · intro _
    left
    split
    · exact ⟨rfl, by simp [ticksLeft, hp]⟩
    · exact ⟨by simp [St.tick, St.emit], by simp [ticksLeft, hp, St.emit]⟩
  · rename_i b
    cases ht : s.todo with
    | nil =>
      intro _
      left
      unfold cleanStep
      rw [ht]
      cases b <;> simp [ticksLeft, hp, St.tick]
    | cons sl rest =>
      intro hr
      obtain ⟨-, c2, -⟩ := ctl_clean hG hI hp ht
      obtain ⟨-, -, -, h4, h5⟩ := c2.resolve_left hr
      left
      unfold cleanStep
      rw [ht]
      simp [h4, h5, ticksLeft, hp, ht, St.tick]
  · intro _
    left
    obtain ⟨c1, c2, -⟩ := pick_cases hG hI hp
    refine ⟨by simp [St.tick, c2], by simp [ticksLeft, c1, hp]⟩
  · intro _
    right
    exact ⟨⟨_, hp⟩, by simp [St.tick, St.emit]⟩
  · intro _
    left
    split
    · exact ⟨by simp [St.tick, St.emit], by simp [ticksLeft, hp]⟩
    · exact ⟨rfl, by simp [ticksLeft, hp]⟩
  · exact absurd hp hnf

/-- the next move of an execution in which jobs take the given number of ticks -/
theorem metered_next (hG : Healthy C) (ms : List Move) (hM : Metered d (exec C ms))
    (hact : (exec C ms).phase.active = true) (hnf : (exec C ms).phase ≠ .finished) :
    ∃ m, Metered d (exec C (ms ++ [m])) ∧ (exec C (ms ++ [m])).phase.active = true ∧
      (remaining (exec C (ms ++ [m])) < remaining (exec C ms) ∨
        (remaining (exec C (ms ++ [m])) = remaining (exec C ms) ∧
          (exec C (ms ++ [m])).worker = (exec C ms).worker ∧
          (Settled (exec C ms) → dist (exec C (ms ++ [m])) < dist (exec C ms)) ∧
          (((exec C (ms ++ [m])).tick = (exec C ms).tick ∧
              ticksLeft (exec C (ms ++ [m])) < ticksLeft (exec C ms)) ∨
            (∃ b, (exec C ms).phase = .susp b) ∧ (exec C (ms ++ [m])).tick = (exec C ms).tick + 1))) := by
  obtain ⟨hI, hT⟩ := both_exec hG.wf ms
  by_cases hdue : ∃ b sl rest, (exec C ms).phase = .clean b ∧ (exec C ms).todo = sl :: rest ∧
      sl.h.launched = true ∧ (exec C ms).worker sl.h.node ≠ .finished ∧
      ∃ j, LaunchedIn (exec C ms).trace sl.h.node j ∧ (exec C ms).tick = j + d sl.h.node
  · obtain ⟨b, sl, rest, hp, ht, hl, hw, j, hj, hd⟩ := hdue
    have hmem : sl.h ∈ handles (exec C ms) := Inv.slot_mem ht
    obtain ⟨w1, -, w3, -⟩ := worker_progress hI hact sl.h.node
    have hni := (hI.launched _ hmem hl).2.1
    cases hwk : (exec C ms).worker sl.h.node with
    | idle => exact absurd hwk hni
    | finished => exact absurd hwk hw
    | queued =>
      refine ⟨.begin sl.h.node, ?_⟩
      rw [exec_snoc]
      exact ⟨metered_worker hM _ _ (.inl rfl), by rw [(w1 hwk).1]; exact hact, .inl (w1 hwk).2⟩
    | running =>
      refine ⟨.finish sl.h.node, ?_⟩
      rw [exec_snoc]
      refine ⟨metered_worker hM _ _ (.inr ⟨rfl, ?_⟩), by rw [(w3 hwk).1]; exact hact, .inl (w3 hwk).2⟩
      intro j' hj'
      rw [launchedIn_unique hT hact hmem hl hj' hj]
      exact hd
  · refine ⟨.ctl, ?_⟩
    rw [exec_snoc]
    obtain ⟨p1, p2⟩ := ctl_progress hG hI hact hnf
    refine ⟨metered_ctl hG hI hT hM hact hnf ?_, p1, ?_⟩
    · intro b sl rest hp ht hl hw j hj hd
      exact hdue ⟨b, sl, rest, hp, ht, hl, hw, j, hj, hd⟩
    · rcases p2 with p2 | ⟨p2, p3, p4⟩
      · exact .inl p2
      · exact .inr ⟨p2, p3, p4, leftover_ctl hG hI hact hnf (by show ¬ remaining (ctlStep C _ true) < _; omega)⟩

/-- the execution goes on until less remains to be done -/
theorem metered_less (hG : Healthy C) (ms : List Move) (hM : Metered d (exec C ms))
    (hact : (exec C ms).phase.active = true) : ∃ ms', Metered d (exec C (ms ++ ms')) ∧
      (exec C (ms ++ ms')).phase.active = true ∧
      (remaining (exec C (ms ++ ms')) < remaining (exec C ms) ∨ (exec C (ms ++ ms')).phase = .finished) := by
  by_cases hset : Settled (exec C ms)
  · -- no job is waited for
    have key : ∀ v ms, Metered d (exec C ms) → (exec C ms).phase.active = true → Settled (exec C ms) →
        dist (exec C ms) ≤ v → ∃ ms', Metered d (exec C (ms ++ ms')) ∧
          (exec C (ms ++ ms')).phase.active = true ∧
          (remaining (exec C (ms ++ ms')) < remaining (exec C ms) ∨
            (exec C (ms ++ ms')).phase = .finished) := by
      intro v
      induction v using Nat.strongRecOn with
      | ind v ih =>
      intro ms hM hact hset hv
      by_cases hnf : (exec C ms).phase = .finished
      · exact ⟨[], by simpa using hM, by simpa using hact, .inr (by simpa using hnf)⟩
      obtain ⟨m, h1, h2, h3 | ⟨h3, h4, h5, -⟩⟩ := metered_next hG ms hM hact hnf
      · exact ⟨[m], h1, h2, .inl h3⟩
      · have hs' : Settled (exec C (ms ++ [m])) := by intro n; rw [h4]; exact hset n
        obtain ⟨ms', q1, q2, q3⟩ := ih (dist (exec C (ms ++ [m]))) (by have := h5 hset; omega) _ h1 h2 hs'
          (Nat.le_refl _)
        rw [List.append_assoc] at q1 q2 q3
        exact ⟨[m] ++ ms', q1, q2, by rw [← h3]; exact q3⟩
    exact key _ ms hM hact hset (Nat.le_refl _)
  · -- some job is waited for
    have hn0 : ∃ n0, (exec C ms).worker n0 ≠ .idle ∧ (exec C ms).worker n0 ≠ .finished := by
      by_contra hc
      refine hset fun n => ?_
      by_contra hn
      exact hc ⟨n, fun h => hn (.inl h), fun h => hn (.inr h)⟩
    obtain ⟨n0, hn1, hn2⟩ := hn0
    have hh : ∀ ms, (exec C ms).worker n0 ≠ .idle → (exec C ms).worker n0 ≠ .finished →
        ∃ h ∈ handles (exec C ms), h.node = n0 ∧ h.launched = true := by
      intro ms h1 h2
      rcases (inv_exec hG.wf ms).workerOnly n0 h1 with ⟨-, h⟩ | h
      · exact absurd h h2
      · exact h
    obtain ⟨j0, hj0⟩ : ∃ j0, LaunchedIn (exec C ms).trace n0 j0 := by
      obtain ⟨h, hm, rfl, hl⟩ := hh ms hn1 hn2
      obtain ⟨p, q, hpq⟩ := List.append_of_mem (launched_event (tinv_exec hG.wf ms) hact hm hl)
      exact ⟨_, p, q, hpq, rfl⟩
    let K := max 1 C.threadCount + 6
    have key : ∀ v ms, Metered d (exec C ms) → (exec C ms).phase.active = true →
        (exec C ms).worker n0 ≠ .idle → (exec C ms).worker n0 ≠ .finished →
        LaunchedIn (exec C ms).trace n0 j0 →
        (j0 + d n0 - (exec C ms).tick) * K + ticksLeft (exec C ms) ≤ v →
        ∃ ms', Metered d (exec C (ms ++ ms')) ∧
          (exec C (ms ++ ms')).phase.active = true ∧
          (remaining (exec C (ms ++ ms')) < remaining (exec C ms) ∨
            (exec C (ms ++ ms')).phase = .finished) := by
      intro v
      induction v using Nat.strongRecOn with
      | ind v ih =>
      intro ms hM hact hn1 hn2 hj hv
      by_cases hnf : (exec C ms).phase = .finished
      · exact ⟨[], by simpa using hM, by simpa using hact, .inr (by simpa using hnf)⟩
      obtain ⟨m, h1, h2, h3 | ⟨h3, h4, -, h5⟩⟩ := metered_next hG ms hM hact hnf
      · exact ⟨[m], h1, h2, .inl h3⟩
      · have hj' : LaunchedIn (exec C (ms ++ [m])).trace n0 j0 := by
          obtain ⟨ext, hext⟩ := exec_grows hG.wf ms [m]
          rw [← hext]; exact hj.grow
        have hlo : ticksLeft (exec C (ms ++ [m])) < K := by
          have := (tinv_exec hG.wf (ms ++ [m])).slots
          have hb : ticksLeft (exec C (ms ++ [m])) ≤ (exec C (ms ++ [m])).todo.length + 5 := by
            unfold ticksLeft
            split <;> omega
          show _ < max 1 C.threadCount + 6
          omega
        have hless : (j0 + d n0 - (exec C (ms ++ [m])).tick) * K + ticksLeft (exec C (ms ++ [m])) <
            (j0 + d n0 - (exec C ms).tick) * K + ticksLeft (exec C ms) := by
          rcases h5 with ⟨h5, h6⟩ | ⟨⟨b, h5⟩, h6⟩
          · rw [h5]; omega
          · obtain ⟨h, hm, hn, hl⟩ := hh ms hn1 hn2
            have hlt := hM.later h hm hl (.inr (.inr ⟨b, h5⟩)) j0 (by rw [hn]; exact hj)
            rw [hn] at hlt
            have e : j0 + d n0 - (exec C ms).tick = (j0 + d n0 - (exec C (ms ++ [m])).tick) + 1 := by
              rw [h6]; omega
            rw [e, Nat.add_mul]
            omega
        obtain ⟨ms', q1, q2, q3⟩ := ih _ (by omega) _ h1 h2 (by rw [h4]; exact hn1) (by rw [h4]; exact hn2) hj'
          (Nat.le_refl _)
        rw [List.append_assoc] at q1 q2 q3
        exact ⟨[m] ++ ms', q1, q2, by rw [← h3]; exact q3⟩
    exact key _ ms hM hact hn1 hn2 hj0 (Nat.le_refl _)

theorem metered_start (hG : Healthy C) : Metered d (exec C [.ctl]) ∧
    (exec C [.ctl]).phase.active = true := by
  have e : exec C [.ctl] = prologue C St.init := rfl
  rw [e]
  obtain ⟨h1, h2, -⟩ := prologue_todo (C := C)
  have hno : ∀ n j, ¬ LaunchedIn (prologue C St.init).trace n j := by
    intro n j hj
    rcases prologue_events hG.wf _ hj.mem with h | h
    · cases h
    · simp [proEv] at h
  have hh : handles (prologue C St.init) = [] := by simp [handles, h1, h2]
  refine ⟨⟨?_, ?_, ?_, ?_⟩, by rw [prologue_healthy hG]; rfl⟩
  · intro h hm; rw [hh] at hm; cases hm
  · intro h hm; rw [hh] at hm; cases hm
  · intro h hm; rw [hh] at hm; cases hm
  · intro n j hj; exact absurd hj (hno n j)

/-- any number of ticks for each job is possible -/
theorem metered_finish (hG : Healthy C) (d : Node → Nat) : ∃ ms, (exec C ms).phase = .finished ∧
    Metered d (exec C ms) := by
  have key : ∀ v ms, Metered d (exec C ms) → (exec C ms).phase.active = true → remaining (exec C ms) ≤ v →
      ∃ ms', (exec C ms').phase = .finished ∧ Metered d (exec C ms') := by
    intro v
    induction v using Nat.strongRecOn with
    | ind v ih =>
    intro ms hM hact hv
    obtain ⟨ms', h1, h2, h3 | h3⟩ := metered_less hG ms hM hact
    · exact ih _ (by omega) _ h1 h2 (Nat.le_refl _)
    · exact ⟨_, h3, h1⟩
  exact key _ _ (metered_start hG).1 (metered_start (d := d) hG).2 (Nat.le_refl _)

end Joque
