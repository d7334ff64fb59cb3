import Verif.Proof.Trace

namespace Joque

theorem pro_append {C : Cfg} {s : St} {p : Phase} {w : Node → Worker} {tr : List Event}
    (h : ProOK C s.phase s.worker s.trace)
    {evs : List Event} (htr : tr = s.trace ++ evs)
    (hc : s.phase ∉ noPro ++ visPhases ∨
      (evs = [] ∧ w = s.worker ∧ (s.phase ∈ noPro → p ∈ noPro) ∧
        (s.phase ∈ visPhases → p ∈ visPhases)))
    (he : ∀ e ∈ evs, proEv e = false) : ProOK C p w tr := by
  rcases h with h | ⟨rest, h1, h2⟩ | ⟨h1, h2, h3⟩
  · rcases hc with hc | hc
    · exact absurd (List.mem_append_left _ h.1) hc
    · left; exact ⟨hc.2.2.1 h.1, by rw [htr, h.2, hc.1]; rfl⟩
  · right; left
    refine ⟨rest ++ evs, by rw [htr, h1, List.append_assoc], ?_⟩
    intro e hm
    rcases List.mem_append.1 hm with hm | hm
    · exact h2 e hm
    · exact he e hm
  · rcases hc with hc | hc
    · exact absurd (List.mem_append_right _ h1) hc
    · right; right
      refine ⟨hc.2.2.2 h1, by rw [hc.2.1]; exact h2, ?_⟩
      rw [htr, hc.1, List.append_nil]; exact h3

/-- Steps that change the phase and add untagged events. -/
theorem TInv.phase {C : Cfg} {s s' : St} (_hI : Inv C s) (hT : TInv C s) {evs : List Event}
    (e1 : s'.toProcess = s.toProcess) (e4 : s'.todo = s.todo) (e5 : s'.kept = s.kept)
    (e6 : s'.passed = s.passed) (e7 : s'.worker = s.worker) (e8 : s'.erec = s.erec)
    (e9 : s'.trace = s.trace ++ evs)
    (hg : ∀ e pre post, evs = pre ++ e :: post → Guard C (s.trace ++ pre) e)
    (hl : ∀ n, life n evs = []) (hr : recsOf evs = []) (hpro : ∀ e ∈ evs, proEv e = false)
    (hc : s.phase ∉ noPro ++ visPhases ∨
      (evs = [] ∧ (s.phase ∈ noPro → s'.phase ∈ noPro) ∧
        (s.phase ∈ visPhases → s'.phase ∈ visPhases)))
    (hub : s.phase.active = false → s'.phase.active = false)
    (hns : s'.phase.active = true → (∃ h ∈ handles s, h.launched = false) →
      (∃ d, s'.phase = .susp d) ∨ NoStartSince s'.trace)
    (hae : ∀ er, .afterExecution er ∈ s'.trace →
      s'.phase ∈ Phase.finished :: visPhases ∧ handles s = [])
    (hfin : s'.phase = .finished → .afterExecution s.erec ∈ s'.trace)
    (hj : (∃ e, s'.phase = .threw e) ∨ s'.phase = .destroyed →
      ∀ n, s.worker n = .idle ∨ s.worker n = .finished) : TInv C s' := by
  have hh : handles s' = handles s := by simp [handles, e4, e5]
  have hrn : recNodes s' = recNodes s := by simp [recNodes, e8]
  have ha : allNodes s' = allNodes s := by simp [allNodes, hh, hrn, e1]
  have hlife : ∀ n, life n s'.trace = life n s.trace := by
    intro n; rw [e9, life_append, hl, List.append_nil]
  constructor
  · rw [e9]; exact always_append hT.always (fun pre e post h => hg e pre post h)
  · rw [e9, recsOf_append, hr, List.append_nil, e8]; exact hT.recs
  · rw [e1]; intro n hn; rw [hlife]; exact hT.lifeTp n hn
  · rw [hh]; intro h hm hl'; rw [hlife]
    rcases hT.lifeFresh h hm hl' with h1 | ⟨h1, h2⟩
    · exact .inl h1
    · exact .inr ⟨hub h1, h2⟩
  · rw [hh, e7]; intro h hm hl'; rw [hlife]
    rcases hT.lifeLaunched h hm hl' with h1 | ⟨h1, h2⟩
    · exact .inl h1
    · exact .inr ⟨hub h1, h2⟩
  · rw [e8]; intro r hr'; rw [hlife]; exact hT.lifeRec r hr'
  · rw [ha]; intro n hn; rw [hlife]; exact hT.lifeOther n hn
  · refine pro_append hT.pro e9 ?_ hpro
    rcases hc with hc | ⟨h1, h2, h3⟩
    · exact .inl hc
    · exact .inr ⟨h1, e7, h2, h3⟩
  · rw [e6, e4]; exact hT.slots
  · rw [e6, e4, e5]; exact hT.refs
  · rw [hh]; exact hns
  · rw [hh]; exact hae
  · rw [e8]; exact hfin
  · rw [e7]; exact hj

theorem TInv.ub {C : Cfg} {s : St} (hI : Inv C s) (hT : TInv C s) (hc : s.phase ∉ noPro) :
    TInv C { s with phase := .ub } := by
  refine hT.phase hI (evs := []) rfl rfl rfl rfl rfl rfl (by simp) (by simp) (by simp [life])
    rfl (by simp) (.inr ⟨rfl, fun h => absurd h hc, by simp [visPhases]⟩) (by simp [Phase.active])
    (by simp [Phase.active]) ?_ (by simp) (by simp)
  intro er hm
  exact ⟨by simp [visPhases], (hT.afterExec er hm).2⟩

theorem TInv.ctlLight {C : Cfg} {s : St} (hI : Inv C s) (hT : TInv C s) (ok : Bool)
    (h1 : s.phase ≠ .created) (h2 : ∀ d, s.phase ≠ .clean d) (h3 : s.phase ≠ .pick) :
    TInv C (ctlStep C s ok) := by
  unfold ctlStep
  split
  · rename_i hp; exact absurd hp h1
  · rename_i hp
    have hact : s.phase.active = true := by rw [hp]; rfl
    have hna := no_afterExec hT (.inl (by rw [hp]; simp [visPhases]))
    have hns : (∃ h ∈ handles s, h.launched = false) → NoStartSince s.trace := by
      intro h
      rcases hT.noStart hact h with ⟨d, hd⟩ | h
      · rw [hp] at hd; cases hd
      · exact h
    split
    · refine hT.phase hI (evs := []) rfl rfl rfl rfl rfl rfl (by simp) (by simp) (by simp [life])
        rfl (by simp) (.inl (by simp [hp, noPro, visPhases])) (by simp [hp, Phase.active]) (fun _ h => .inr (hns h))
        (fun er h => absurd h (hna er)) (by simp) (by simp)
    · refine hT.phase hI (evs := [.onTick s.erec]) rfl rfl rfl rfl rfl rfl (by simp [St.emit]) ?_
        (by simp [life, tagOf])
        rfl (by simp [proEv]) (.inl (by simp [hp, noPro, visPhases])) (by simp [hp, Phase.active])
        (fun _ h => .inr (noStart_append (hns h) (by simp)))
        (fun er h => absurd h (by simp [St.emit, hna er])) (by simp) (by simp)
      intro e pre post heq
      rcases List.append_eq_singleton_iff.1 heq.symm with ⟨rfl, h⟩ | ⟨_, h⟩
      · simp at h; obtain ⟨rfl, rfl⟩ := h
        simp only [List.append_nil]
        exact ⟨hna, erecOK_of_inv hI hT hact⟩
      · simp at h
  · rename_i d hp; exact absurd hp (h2 d)
  · rename_i hp; exact absurd hp h3
  · rename_i d hp
    have hna := no_afterExec hT (.inl (by rw [hp]; simp [visPhases]))
    refine hT.phase hI (evs := [.resumed]) rfl rfl rfl rfl rfl rfl (by simp [St.emit]) ?_
        (by simp [life, tagOf])
        rfl (by simp [proEv]) (.inl (by simp [hp, noPro, visPhases])) (by simp [hp, Phase.active])
        (fun _ h => .inr noStart_resumed)
        (fun er h => absurd h (by simp [St.emit, hna er])) (by cases d <;> simp)
        (by cases d <;> simp)
    intro e pre post heq
    rcases List.append_eq_singleton_iff.1 heq.symm with ⟨rfl, h⟩ | ⟨_, h⟩
    · simp at h; obtain ⟨rfl, rfl⟩ := h
      simp only [List.append_nil]
      exact ⟨hna, trivial⟩
    · simp at h
  · rename_i hp
    have hact : s.phase.active = true := by rw [hp]; rfl
    have hna := no_afterExec hT (.inl (by rw [hp]; simp [visPhases]))
    have hns : (∃ h ∈ handles s, h.launched = false) → NoStartSince s.trace := by
      intro h
      rcases hT.noStart hact h with ⟨d, hd⟩ | h
      · rw [hp] at hd; cases hd
      · exact h
    split
    · rename_i ht
      have hhe : handles s = [] := by
        have := (hI.notClean hact (by rw [hp]; rfl)).1
        simp [handles, this, ht]
      refine hT.phase hI (evs := [.afterExecution s.erec]) rfl rfl rfl rfl rfl rfl
        (by simp [St.emit]) ?_ (by simp [life, tagOf])
        rfl (by simp [proEv]) (.inl (by simp [hp, noPro, visPhases])) (by simp [hp, Phase.active])
        (fun _ h => by rw [hhe] at h; simp at h)
        (fun er h => ⟨by simp [visPhases], hhe⟩) (by simp [St.emit]) (by simp)
      intro e pre post heq
      rcases List.append_eq_singleton_iff.1 heq.symm with ⟨rfl, h⟩ | ⟨_, h⟩
      · simp at h; obtain ⟨rfl, rfl⟩ := h
        simp only [List.append_nil]
        refine ⟨hna, erecOK_of_inv hI hT hact, ?_⟩
        intro n hn
        have := hI.part hact n hn
        unfold allNodes at this
        rw [hhe, hI.drain (by rw [hp]; rfl)] at this
        simp at this
        exact recorded_of_done hI hT ((hI.doneIff n).2 this)
      · simp at h
    · refine hT.phase hI (evs := []) rfl rfl rfl rfl rfl rfl (by simp) (by simp) (by simp [life])
        rfl (by simp) (.inl (by simp [hp, noPro, visPhases])) (by simp [hp, Phase.active]) (fun _ h => .inr (hns h))
        (fun er h => absurd h (hna er)) (by simp) (by simp)
  · rename_i e hp
    split
    · rename_i hj
      refine hT.phase hI (evs := []) rfl rfl rfl rfl rfl rfl (by simp) (by simp) (by simp [life])
        rfl (by simp) (.inr ⟨rfl, by simp [hp, noPro], by simp [hp, visPhases]⟩) (by simp [Phase.active])
        (by simp [Phase.active])
        (fun er h => ⟨by have := (hT.afterExec er h).1; rw [hp] at this; simpa [visPhases] using this,
          (hT.afterExec er h).2⟩) (by simp) ?_
      intro _ n
      by_contra hcon
      rw [not_or] at hcon
      rcases hI.workerOnly n hcon.1 with h | ⟨h, hm, rfl, _⟩
      · exact hcon.2 h.2
      · have := List.all_eq_true.1 hj h hm
        simp at this
        rcases this with h' | h'
        · exact hcon.1 h'
        · exact hcon.2 h'
    · exact hT
  · rename_i hp
    split
    · rename_i hj
      refine hT.phase hI (evs := []) rfl rfl rfl rfl rfl rfl (by simp) (by simp) (by simp [life])
        rfl (by simp) (.inr ⟨rfl, by simp [hp, noPro], by simp [hp, visPhases]⟩) (by simp [Phase.active])
        (by simp [Phase.active])
        (fun er h => ⟨by simp [visPhases], (hT.afterExec er h).2⟩) (by simp) ?_
      intro _ n
      by_contra hcon
      rw [not_or] at hcon
      rcases hI.workerOnly n hcon.1 with h | ⟨h, hm, rfl, _⟩
      · exact hcon.2 h.2
      · have := List.all_eq_true.1 hj h hm
        simp at this
        rcases this with h' | h'
        · exact hcon.1 h'
        · exact hcon.2 h'
    · exact hT
  · rename_i hp; exact hT.ub hI (by simp [hp, noPro])
  · rename_i hp; exact hT.ub hI (by simp [hp, noPro])
  all_goals exact hT

theorem TInv.destroy {C : Cfg} {s : St} (hI : Inv C s) (hT : TInv C s) :
    TInv C (destroyStep s) := by
  have key : s.phase ≠ .ub → (∀ er, Event.afterExecution er ∈ s.trace → handles s = []) →
      TInv C { s with phase := .destroying } := fun _ hae =>
    hT.phase hI (evs := []) rfl rfl rfl rfl rfl rfl (by simp) (by simp) (by simp [life])
      rfl (by simp) (.inr ⟨rfl, by simp [noPro], by simp [visPhases]⟩) (by simp [Phase.active])
      (by simp [Phase.active]) (fun er h => ⟨by simp [visPhases], hae er h⟩) (by simp) (by simp)
  unfold destroyStep
  split
  · rename_i hp; exact key (by simp [hp]) (fun er h => (hT.afterExec er h).2)
  · rename_i hp; exact key (by simp [hp]) (fun er h => (hT.afterExec er h).2)
  · rename_i hp; exact key (by simp [hp]) (fun er h => (hT.afterExec er h).2)
  · rename_i hp; exact key (by simp [hp]) (fun er h => (hT.afterExec er h).2)
  · exact hT

/-- a worker enters or leaves its job -/
theorem TInv.worker {C : Cfg} {s : St} (hI : Inv C s) (hT : TInv C s) {n : Node} {w w' : Worker}
    {e : Event}
    (h : (w = .queued ∧ w' = .running ∧ e = .jobBegin n false) ∨
         (w = .running ∧ w' = .finished ∧ e = .jobEnd n))
    (hw : s.worker n = w) :
    TInv C { s.emit e with worker := setWorker s.worker n w' } := by
  obtain ⟨x, hx, hxn, hxl⟩ : ∃ x ∈ handles s, x.node = n ∧ x.launched = true := by
    rcases hI.workerOnly n (by rcases h with h | h <;> rw [hw, h.1] <;> simp) with h1 | h1
    · rw [h1.2] at hw; rcases h with h | h <;> rw [← hw] at h <;> simp at h
    · exact h1
  have hlife : ∀ m, m ≠ n → life m (s.trace ++ [e]) = life m s.trace := by
    intro m hm
    rw [life_append]
    rcases h with ⟨_, _, rfl⟩ | ⟨_, _, rfl⟩ <;> simp [life, tagOf, hm.symm]
  have hnd := hI.nodup
  have hhn : n ∈ (handles s).map Handle.node := by rw [← hxn]; exact List.mem_map_of_mem hx
  have htp : n ∉ s.toProcess := by
    intro hc
    unfold allNodes at hnd
    rw [List.append_assoc, List.nodup_append] at hnd
    exact hnd.2.2 n hhn n (by simp [hc]) rfl
  have hrn : ∀ r ∈ s.erec.runs, r.node ≠ n := by
    rintro r hr rfl
    unfold allNodes at hnd
    rw [List.append_assoc, List.nodup_append] at hnd
    exact hnd.2.2 r.node hhn r.node
      (List.mem_append_left _ (List.mem_map_of_mem (f := RunRecord.node) hr)) rfl
  have hna := no_afterExec hT (.inr (by intro hc; rw [hc] at hx; cases hx))
  have hpr : ∃ rest, s.trace = (prologue C St.init).trace ++ rest ∧ ∀ e ∈ rest, proEv e = false := by
    rcases hT.pro with h1 | h1 | h1
    · rcases hT.lifeLaunched x hx hxl with this | ⟨_, _, this⟩
      · rw [h1.2] at this
        cases hw2 : s.worker x.node <;> rw [hw2] at this <;> simp [life, workerLife] at this
      · rw [h1.2] at this
        simp [life, workerLife] at this
    · exact h1
    · rw [h1.2.1 n] at hw
      rcases h with h | h <;> rw [← hw] at h <;> simp at h
  have huni : ∀ y ∈ handles s, y.node = n → y = x := by
    intro y hy hyn
    unfold allNodes at hnd
    rw [List.append_assoc, List.nodup_append] at hnd
    exact List.inj_on_of_nodup_map hnd.1 hy hx (by rw [hyn, hxn])
  have hxlife : life n s.trace = workerLife w := by
    rcases hT.lifeLaunched x hx hxl with h1 | ⟨_, h1, _⟩
    · rw [hxn, hw] at h1; exact h1
    · rw [hxn, hw] at h1; rcases h with h | h <;> rw [h1] at h <;> simp at h
  constructor
  · refine always_snoc hT.always ⟨hna, ?_⟩
    rcases h with ⟨rfl, rfl, rfl⟩ | ⟨rfl, rfl, rfl⟩
    · have htc : C.threadCount ≠ 0 := fun h0 => by rw [hI.seq h0 n] at hw; cases hw
      obtain ⟨a, b, c, d', e, f, g⟩ := hI.launched x hx hxl
      rw [hxn] at a b c d' e g
      refine ⟨by simp [htc], ?_, ?_, ?_, ?_, ?_⟩
      · intro m hm; exact recorded_of_done hI hT (hI.preds x hx m (by rw [hxn]; exact hm))
      · intro m hm
        obtain ⟨h1, y, hy, rfl, hyl⟩ := running_worker hI hT hm
        have hne : y.node ≠ n := by intro hc; rw [hc, hw] at h1; cases h1
        refine ⟨hne, ?_⟩
        have := hI.excl x hx y hy hxl hyl (by rw [hxn]; exact hne.symm)
        rw [hxn] at this; exact this
      · intro l hl hall
        have hnl : n ∉ l := by
          intro hc; have := (running_worker hI hT (hall n hc)).1; rw [hw] at this; cases this
        have hsub : (n :: l) ⊆ (handles s).map Handle.node := by
          intro m hm
          rcases List.mem_cons.1 hm with rfl | hm
          · exact hhn
          · obtain ⟨_, y, hy, rfl, _⟩ := running_worker hI hT (hall m hm)
            exact List.mem_map_of_mem hy
        have h1 := (List.subperm_of_subset (List.nodup_cons.2 ⟨hnl, hl⟩) hsub).length_le
        have h2 := hI.cap htc
        simp at h1
        omega
      · have hact : ¬ ∀ n, s.flags.inval n = .unknown := by
          intro hc; rw [hc] at c; cases c
        have hinv := hI.inval.resolve_left hact
        have hnn := hI.handle_node hx
        rw [hxn] at hnn
        by_contra hs
        rw [(hinv n hnn).2 hs] at c; cases c
      · intro m h1 h2
        have hf := d' m h1 h2
        obtain ⟨r, hr, hrm⟩ := recorded_of_done hI hT
          (hI.preds x hx m (by rw [hxn]; exact h2))
        refine ⟨r, hr, hrm, ?_⟩
        rw [hT.recs] at hr
        cases hst : r.status <;> simp
        · have := (hI.failedIff m).2 ⟨r, hr, hrm, by simp [hst, badStatus]⟩
          rw [hf] at this; cases this
        · have := (hI.failedIff m).2 ⟨r, hr, hrm, by simp [hst, badStatus]⟩
          rw [hf] at this; cases this
    · trivial
  · show recsOf (s.trace ++ [e]) = _
    rw [recsOf_append]
    rw [hT.recs]
    rcases h with ⟨_, _, rfl⟩ | ⟨_, _, rfl⟩ <;> simp [recsOf, St.emit]
  · intro m hm
    show life m (s.trace ++ [e]) = _
    rw [hlife m (by rintro rfl; exact htp hm)]; exact hT.lifeTp m hm
  · intro y hy hyl
    have hne : y.node ≠ n := by
      intro hc; have := huni y hy hc; subst this; rw [hxl] at hyl; cases hyl
    show life y.node (s.trace ++ [e]) = _ ∨ (_ ∧ Stopped C (life y.node (s.trace ++ [e])))
    rw [hlife _ hne]; exact hT.lifeFresh y hy hyl
  · intro y hy hyl
    show life y.node (s.trace ++ [e]) = workerLife (setWorker s.worker n w' y.node) ∨
      (_ ∧ setWorker s.worker n w' y.node = _ ∧ life y.node (s.trace ++ [e]) = _)
    by_cases hc : y.node = n
    · have := huni y hy hc; subst this
      left
      rw [hc, life_append, hxlife]
      rcases h with ⟨rfl, rfl, rfl⟩ | ⟨rfl, rfl, rfl⟩ <;>
        simp [setWorker, life, tagOf, workerLife]
    · rw [hlife _ hc]
      simp only [setWorker, hc, if_false]
      exact hT.lifeLaunched y hy hyl
  · intro r hr
    show life r.node (s.trace ++ [e]) = _
    rw [hlife _ (hrn r hr)]; exact hT.lifeRec r hr
  · intro m hm
    have hm' : m ∉ allNodes s := hm
    show life m (s.trace ++ [e]) = _ ∨ (_ ∧ life m (s.trace ++ [e]) = _)
    rw [hlife m (by rintro rfl; exact hm' (by unfold allNodes; simp only [List.mem_append]; exact .inl (.inl hhn)))]
    exact hT.lifeOther m hm
  · obtain ⟨rest, h1, h2⟩ := hpr
    refine .inr (.inl ⟨rest ++ [e], by simp [St.emit, h1], ?_⟩)
    intro e' he'
    rcases List.mem_append.1 he' with he' | he'
    · exact h2 e' he'
    rw [List.mem_singleton] at he'; subst he'
    rcases h with ⟨_, _, rfl⟩ | ⟨_, _, rfl⟩ <;> simp [proEv]
  · exact hT.slots
  · exact hT.refs
  · intro ha hf
    rcases hT.noStart ha hf with h1 | h1
    · exact .inl h1
    · right; apply noStart_append h1
      rcases h with ⟨_, _, rfl⟩ | ⟨_, _, rfl⟩ <;> simp
  · intro er hm
    have hm' : Event.afterExecution er ∈ s.trace ++ [e] := hm
    rw [List.mem_append] at hm'
    rcases hm' with hm' | hm'
    · exact absurd hm' (hna er)
    · rcases h with ⟨_, _, rfl⟩ | ⟨_, _, rfl⟩ <;> simp at hm'
  · intro hp
    exact absurd (hT.isFinished hp) (hna _)
  · intro hp m
    have := hT.joined hp n
    rw [hw] at this
    rcases h with ⟨rfl, _⟩ | ⟨rfl, _⟩ <;> simp at this

/-- Steps of `cleanup_coros` and of the candidate search that keep all nodes in place and add no
event. -/
theorem TInv.cleanEnd {C : Cfg} {s : St} (hI : Inv C s) (hT : TInv C s) {d : Bool}
    (hp : s.phase = .clean d) (ht : s.todo = []) :
    TInv C { s with
      todo := List.zipWith Slot.mk s.passed s.kept
      kept := []
      passed := []
      phase := if d then .susp true else .pick } := by
  have hz := zip_h hI.passedLen
  generalize hs' : ({ s with
      todo := List.zipWith Slot.mk s.passed s.kept
      kept := []
      passed := []
      phase := if d then .susp true else .pick } : St) = s'
  have hh : handles s' = handles s := by subst hs'; simp [handles, ht, hz]
  have htr : s'.trace = s.trace := by subst hs'; rfl
  have her : s'.erec = s.erec := by subst hs'; rfl
  have hw : s'.worker = s.worker := by subst hs'; rfl
  have htp : s'.toProcess = s.toProcess := by subst hs'; rfl
  have ha : allNodes s' = allNodes s := by simp [allNodes, hh, recNodes, her, htp]
  have hph : s'.phase = if d then .susp true else .pick := by subst hs'; rfl
  have hna := no_afterExec hT (.inl (by rw [hp]; simp [visPhases]))
  constructor
  · rw [htr]; exact hT.always
  · rw [htr, her]; exact hT.recs
  · rw [htr, htp]; exact hT.lifeTp
  · rw [htr, hh]; intro h hm hl
    rcases hT.lifeFresh h hm hl with h1 | ⟨h1, _⟩
    · exact .inl h1
    · rw [hp] at h1; cases h1
  · rw [htr, hh, hw]; exact fun h hm hl => .inl (hT.life_launched (by rw [hp]; rfl) hm hl)
  · rw [htr, her]; exact hT.lifeRec
  · rw [htr, ha]; exact hT.lifeOther
  · exact pro_append hT.pro (evs := []) (by rw [htr]; simp)
      (.inl (by simp [hp, noPro, visPhases])) (by simp)
  · subst hs'
    have := hT.slots
    simp only [List.length_nil, List.length_zipWith, Nat.zero_add]
    omega
  · intro h1
    have := hT.refs h1
    subst hs'
    exact ⟨this.2, by simp⟩
  · rw [hh, htr]
    intro _ ⟨h, hm, hl⟩
    have hk : h ∈ s.kept := by simpa [handles, ht] using hm
    rw [hI.keptLaunched h hk] at hl; cases hl
  · rw [htr]; exact fun er h => absurd h (hna er)
  · rw [hph]; cases d <;> simp
  · rw [hph]; cases d <;> simp

theorem zipWith_append_left {α β γ : Type} {f : α → β → γ} {l : List α} {k : List β} {x : List α}
    (h : k.length ≤ l.length) : List.zipWith f (l ++ x) k = List.zipWith f l k := by
  induction k generalizing l with
  | nil => simp
  | cons b k ih =>
    cases l with
    | nil => simp at h
    | cons a l => simp at h; simp [ih h]

theorem TInv.keep {C : Cfg} {s : St} (_hI : Inv C s) (hT : TInv C s) {d : Bool}
    (hp : s.phase = .clean d) {sl : Slot} {rest : List Slot} (ht : s.todo = sl :: rest) :
    TInv C { s with kept := s.kept ++ [sl.h], passed := s.passed ++ [sl.ref], todo := rest } := by
  generalize hs' : ({ s with
      kept := s.kept ++ [sl.h]
      passed := s.passed ++ [sl.ref]
      todo := rest } : St) = s'
  have hh : handles s' = handles s := by subst hs'; simp [handles, ht]
  have htr : s'.trace = s.trace := by subst hs'; rfl
  have her : s'.erec = s.erec := by subst hs'; rfl
  have hw : s'.worker = s.worker := by subst hs'; rfl
  have htp : s'.toProcess = s.toProcess := by subst hs'; rfl
  have ha : allNodes s' = allNodes s := by simp [allNodes, hh, recNodes, her, htp]
  have hph : s'.phase = s.phase := by subst hs'; rfl
  have hna := no_afterExec hT (.inl (by rw [hp]; simp [visPhases]))
  constructor
  · rw [htr]; exact hT.always
  · rw [htr, her]; exact hT.recs
  · rw [htr, htp]; exact hT.lifeTp
  · rw [htr, hh, hph]; exact hT.lifeFresh
  · rw [htr, hh, hw, hph]; exact hT.lifeLaunched
  · rw [htr, her]; exact hT.lifeRec
  · rw [htr, ha]; exact hT.lifeOther
  · exact pro_append hT.pro (evs := []) (by rw [htr]; simp)
      (.inl (by simp [hp, noPro, visPhases])) (by simp)
  · subst hs'
    have := hT.slots
    rw [ht] at this
    simp at this ⊢
    omega
  · intro h1
    obtain ⟨r1, r2⟩ := hT.refs h1
    have hsl := hT.slots
    rw [ht] at hsl r1
    have hp0 : s.passed = [] := by
      have : max 1 C.threadCount = 1 := by omega
      rw [this] at hsl
      simp at hsl
      exact List.length_eq_zero_iff.1 (by omega)
    have hk0 : s.kept = [] := by
      have := _hI.passedLen
      rw [hp0] at this
      exact List.length_eq_zero_iff.1 (by simpa using this)
    subst hs'
    refine ⟨fun x hx => r1 x (List.mem_cons_of_mem _ hx), ?_⟩
    simp only [hp0, hk0, List.nil_append, List.zipWith_cons_cons, List.zipWith_nil_left, List.mem_singleton]
    rintro x rfl
    exact r1 sl (by simp)
  · rw [hh, htr, hph]; exact hT.noStart
  · rw [htr]; exact fun er h => absurd h (hna er)
  · rw [hph, hp]; simp
  · rw [hph, hp]; simp

theorem TInv.susp {C : Cfg} {s : St} (hI : Inv C s) (hT : TInv C s) (hp : s.phase = .pick) :
    TInv C { s with phase := .susp false } := by
  have hna := no_afterExec hT (.inl (by rw [hp]; simp [visPhases]))
  exact hT.phase hI (evs := []) rfl rfl rfl rfl rfl rfl (by simp) (by simp) (by simp [life])
        rfl (by simp) (.inl (by simp [hp, noPro, visPhases])) (by simp [hp, Phase.active]) (fun _ h => .inl ⟨_, rfl⟩)
        (fun er h => absurd h (hna er)) (by simp) (by simp)

theorem TInv.picked {C : Cfg} {s : St} (hI : Inv C s) (hT : TInv C s) (hp : s.phase = .pick)
    {n : Node} (hcap : ¬ (s.todo.length ≥ C.threadCount ∧ C.threadCount ≠ 0))
    (htp : n ∈ s.toProcess) :
    TInv C { s with
      toProcess := serase n s.toProcess
      todo := s.todo ++ [⟨n, { node := n, launched := false, start := 0 }⟩]
      phase := .susp false } := by
  have hact : s.phase.active = true := by rw [hp]; rfl
  obtain ⟨hk, hpa⟩ := hI.notClean hact (by rw [hp]; rfl)
  have hna := no_afterExec hT (.inl (by rw [hp]; simp [visPhases]))
  generalize hs' : ({ s with
      toProcess := serase n s.toProcess
      todo := s.todo ++ [⟨n, { node := n, launched := false, start := 0 }⟩]
      phase := .susp false } : St) = s'
  have hh' : handles s' = handles s ++ [{ node := n, launched := false, start := 0 }] := by
    subst hs'; simp [handles]
  have hcase : ∀ h ∈ handles s', h ∈ handles s ∨
      h = { node := n, launched := false, start := 0 } := by
    intro h hm; rw [hh'] at hm; simpa using hm
  have htr : s'.trace = s.trace := by subst hs'; rfl
  have her : s'.erec = s.erec := by subst hs'; rfl
  have hw : s'.worker = s.worker := by subst hs'; rfl
  have htp' : s'.toProcess = serase n s.toProcess := by subst hs'; rfl
  have hph : s'.phase = .susp false := by subst hs'; rfl
  constructor
  · rw [htr]; exact hT.always
  · rw [htr, her]; exact hT.recs
  · rw [htr, htp']; intro m hm; exact hT.lifeTp m (mem_serase.1 hm).1
  · rw [htr]; intro h hm hl
    rcases hcase h hm with h1 | rfl
    · rcases hT.lifeFresh h h1 hl with h2 | ⟨h2, _⟩
      · exact .inl h2
      · rw [hp] at h2; cases h2
    · exact .inl (hT.lifeTp n htp)
  · rw [htr, hw]; intro h hm hl
    rcases hcase h hm with h1 | rfl
    · exact .inl (hT.life_launched hact h1 hl)
    · cases hl
  · rw [htr, her]; exact hT.lifeRec
  · rw [htr]; intro m hm
    apply hT.lifeOther
    intro hc
    apply hm
    unfold allNodes at hc ⊢
    rw [hh', htp']
    simp only [List.mem_append, List.map_append, recNodes, her, mem_serase] at hc ⊢
    rcases hc with (hc | hc) | hc
    · exact .inl (.inl (.inl hc))
    · exact .inl (.inr hc)
    · by_cases hmn : m = n
      · subst hmn; exact .inl (.inl (.inr (by simp)))
      · exact .inr ⟨hc, hmn⟩
  · exact pro_append hT.pro (evs := []) (by rw [htr]; simp)
      (.inl (by simp [hp, noPro, visPhases])) (by simp)
  · subst hs'
    simp [hpa]
    by_cases h0 : C.threadCount = 0
    · have : handles s = [] := by
        cases hc : handles s with
        | nil => rfl
        | cons h t =>
          have hm : h ∈ handles s := by rw [hc]; simp
          have hl : h.launched = true := by
            have hm' := hm
            simp only [handles, hk, List.nil_append] at hm'
            obtain ⟨sl, h1, rfl⟩ := List.mem_map.1 hm'
            exact hI.pickLaunched hp sl h1
          exact absurd (hI.seq h0 h.node) (hI.launched h hm hl).2.1
      simp [handles, hk] at this
      rw [this]; simp; omega
    · have hlt : s.todo.length < C.threadCount := by
        by_contra hc; exact hcap ⟨by omega, h0⟩
      omega
  · intro h1
    obtain ⟨r1, r2⟩ := hT.refs h1
    subst hs'
    refine ⟨?_, r2⟩
    intro x hx
    rcases List.mem_append.1 hx with hx | hx
    · exact r1 x hx
    · rw [List.mem_singleton] at hx; subst hx; rfl
  · rw [hph]; exact fun _ _ => .inl ⟨_, rfl⟩
  · rw [htr]; exact fun er h => absurd h (hna er)
  · rw [hph]; simp
  · rw [hph]; simp

end Joque
