import Verif.Proof.TraceInv2

namespace Joque

/-- The prologue has exactly these outcomes. -/
theorem prologue_spec {C : Cfg} (hwf : C.dag.WF) :
    (Cyclic C.dag ∧ ∃ c, IsCycle C.dag c ∧
      (prologue C St.init).phase = .unwinding .cycle ∧
      (prologue C St.init).trace =
        .resumed :: C.dag.nodes.map Event.nodeEnque ++ [.detectedCycle c]) ∨
    (¬ Cyclic C.dag ∧ (∀ n ∈ C.dag.nodes, Answers C.hasJob C.ask n) ∧
      (prologue C St.init).phase = .loopTop ∧ ∃ evs,
      (prologue C St.init).trace = .resumed :: C.dag.nodes.map Event.nodeEnque ++
        ((toProcessOf C.dag).map (fun n => Event.jobInval n (ansOf C.ask n) (logOf C.ask n)) ++
          evs) ∧
      (∀ e ∈ evs, ∃ n m, e = .depInval n m ∧ HasEdge C.dag .invalidatedBy n m ∧
        Stale C.dag C.ask m ∧ ¬ SelfStale C.ask n) ∧
      (∀ x ∈ C.dag.nodes, Stale C.dag C.ask x → ¬ SelfStale C.ask x →
        ∃ m, .depInval x m ∈ evs)) ∨
    (¬ Cyclic C.dag ∧ ∃ pre n post, toProcessOf C.dag = pre ++ n :: post ∧
      (∀ m ∈ pre, Answers C.hasJob C.ask m) ∧ ¬ Answers C.hasJob C.ask n ∧
      (prologue C St.init).trace = .resumed :: C.dag.nodes.map Event.nodeEnque ++
        pre.map (fun n => Event.jobInval n (ansOf C.ask n) (logOf C.ask n)) ∧
      ((C.hasJob n = false ∧ (prologue C St.init).phase = .ub) ∨
       (C.hasJob n = true ∧ ∃ w, C.ask n = .throws w ∧
        (prologue C St.init).phase = .unwinding (.inval w)))) := by
  have htp := toProcessOf_spec C.dag
  unfold prologue
  simp only
  rcases hasCycle_spec hwf htp.2 with ⟨c, hc, hic⟩ | ⟨hc, hnc⟩
  · left
    rw [hc]
    exact ⟨cyclic_of_isCycle hic, c, hic, rfl, by simp [St.init]⟩
  · right
    rw [hc]
    simp only
    by_cases hall : ∀ n ∈ C.dag.nodes, Answers C.hasJob C.ask n
    · left
      obtain ⟨ps, evs, hps, h1, h2, h3, h4, h5⟩ := propagate_ok hwf (tp := toProcessOf C.dag)
        (inval0 := St.init.flags.inval) htp.2 hall
      rw [hps]
      refine ⟨hnc, hall, rfl, evs, ?_, h4, h5⟩
      simp [St.init, h3]
    · right
      have hex : ∃ n ∈ toProcessOf C.dag, ¬ Answers C.hasJob C.ask n := by
        by_contra hcon
        apply hall
        intro n hn
        by_contra h
        exact hcon ⟨n, (htp.2 n).2 hn, h⟩
      obtain ⟨pre, n, post, h1, h2, h3, hout⟩ := propagate_fail (g := C.dag)
        (inval0 := St.init.flags.inval) hex
      rw [hout]
      refine ⟨hnc, pre, n, post, h1, h2, h3, ?_⟩
      by_cases hj : C.hasJob n = true
      · cases hask : C.ask n with
        | answer r => exact absurd ⟨hj, r, hask⟩ h3
        | throws w =>
          simp only [hj, if_true]
          exact ⟨by simp [St.init], .inr ⟨trivial, w, rfl, rfl⟩⟩
      · have hj' : C.hasJob n = false := by simpa using hj
        simp only [hj']
        exact ⟨by simp [St.init], .inl ⟨trivial, rfl⟩⟩

theorem prologue_events {C : Cfg} (hwf : C.dag.WF) :
    ∀ e ∈ (prologue C St.init).trace, e = .resumed ∨ proEv e = true := by
  intro e he
  rcases prologue_spec hwf with ⟨_, c, _, _, h⟩ | ⟨_, _, _, evs, h, h4, _⟩ |
      ⟨_, pre, n, post, _, _, _, h, _⟩
  · rw [h] at he; simp at he
    rcases he with he | ⟨a, _, rfl⟩ | rfl <;> simp [*, proEv]
  · rw [h] at he; simp at he
    rcases he with he | ⟨a, _, rfl⟩ | ⟨a, _, rfl⟩ | he
    · exact .inl he
    · simp [proEv]
    · simp [proEv]
    · obtain ⟨n, m, rfl, _⟩ := h4 e he; simp [proEv]
  · rw [h] at he; simp at he
    rcases he with he | ⟨a, _, rfl⟩ | ⟨a, _, rfl⟩ <;> simp [*, proEv]

theorem prologue_todo {C : Cfg} : (prologue C St.init).todo = [] ∧ (prologue C St.init).kept = [] ∧
    (prologue C St.init).passed = [] ∧ (prologue C St.init).worker = (fun _ => .idle) ∧
    (prologue C St.init).erec.runs = [] := by
  unfold prologue
  simp only
  split
  · simp [St.init, ExecRecord.init]
  · simp [St.init, ExecRecord.init]
  · simp [St.init, ExecRecord.init]
  · split <;> simp [St.init, ExecRecord.init]

theorem tinv_prologue {C : Cfg} (hwf : C.dag.WF) : TInv C (prologue C St.init) := by
  obtain ⟨t1, t2, t3, t4, t5⟩ := prologue_todo (C := C)
  have hev := prologue_events hwf
  have hh : handles (prologue C St.init) = [] := by simp [handles, t1, t2]
  have hlife : ∀ n, life n (prologue C St.init).trace = [] := by
    intro n
    rw [life, List.filterMap_eq_nil_iff]
    intro e he
    rcases hev e he with rfl | h
    · rfl
    · unfold proEv at h; split at h <;> simp_all [tagOf]
  have hrecs : recsOf (prologue C St.init).trace = [] := by
    rw [recsOf, List.filterMap_eq_nil_iff]
    intro e he
    rcases hev e he with rfl | h
    · rfl
    · unfold proEv at h; split at h <;> simp_all
  have hna : ∀ er, Event.afterExecution er ∉ (prologue C St.init).trace := by
    intro er he
    rcases hev _ he with h | h
    · cases h
    · simp [proEv] at h
  have hph : (prologue C St.init).phase = .unwinding .cycle ∨
      (prologue C St.init).phase = .loopTop ∨ (prologue C St.init).phase = .ub ∨
      ∃ w, (prologue C St.init).phase = .unwinding (.inval w) := by
    rcases prologue_spec hwf with ⟨_, c, _, h, _⟩ | ⟨_, _, h, _⟩ |
      ⟨_, pre, n, post, _, _, _, _, ⟨_, h⟩ | ⟨_, w, _, h⟩⟩
    · exact .inl h
    · exact .inr (.inl h)
    · exact .inr (.inr (.inl h))
    · exact .inr (.inr (.inr ⟨w, h⟩))
  constructor
  · intro pre e post heq
    have he : e ∈ (prologue C St.init).trace := by rw [heq]; simp
    refine ⟨fun er hm => hna er (by rw [heq]; simp [hm]), ?_⟩
    rcases hev e he with rfl | h
    · trivial
    · unfold proEv at h; split at h <;> simp_all
  · rw [hrecs, t5]
  · intro n _; exact hlife n
  · simp [hh]
  · simp [hh]
  · simp [t5]
  · intro n _; exact .inl (hlife n)
  · exact .inr (.inl ⟨[], by simp, by simp⟩)
  · simp [t1, t3]
  · simp [t1, t3]
  · simp [hh]
  · exact fun er h => absurd h (hna er)
  · rcases hph with h | h | h | ⟨w, h⟩ <;> simp [h]
  · intro _ n; rw [t4]; exact .inl rfl

theorem TInv.ctl {C : Cfg} (hwf : C.dag.WF) {s : St} (hI : Inv C s) (hT : TInv C s) (ok : Bool) :
    TInv C (ctlStep C s ok) := by
  by_cases h1 : s.phase = .created
  · rw [hI.createdInit h1]; exact tinv_prologue hwf
  by_cases h2 : ∃ d, s.phase = .clean d
  · obtain ⟨d, hp⟩ := h2
    have : ctlStep C s ok = cleanStep C s ok d := by unfold ctlStep; rw [hp]
    rw [this]
    unfold cleanStep
    split
    · rename_i ht; exact hT.cleanEnd hI hp ht
    · rename_i sl rest ht
      split
      · rename_i hl
        exact hT.startRun hI hp ht (by simpa using hl) ok
      · rename_i hl
        have hl' : sl.h.launched = true := by simpa using hl
        split
        · rename_i hw; exact hT.collect hI hp ht hl' hw
        · exact hT.keep hI hp ht
  by_cases h3 : s.phase = .pick
  · have hact : s.phase.active = true := by rw [h3]; rfl
    have : ctlStep C s ok = pickStep C s := by unfold ctlStep; rw [h3]
    rw [this]
    unfold pickStep
    split
    · exact hT.susp hI h3
    · rename_i hcap
      obtain ⟨r, hr, h4, h5⟩ := findCandidate_spec (res := C.resources) (f := s.flags)
        (used := s.used) hwf hI.tp_nodes
      rw [hr]
      cases r with
      | some n =>
        obtain ⟨hE, hn⟩ := h4 n rfl
        have hlau : ∀ h ∈ handles s, h.launched = true := by
          intro h hm
          obtain ⟨hk, _⟩ := hI.notClean hact (by rw [h3]; rfl)
          simp only [handles, hk, List.nil_append] at hm
          obtain ⟨sl, h1, rfl⟩ := List.mem_map.1 hm
          exact hI.pickLaunched h3 sl h1
        have htp : n ∈ s.toProcess := by
          have := hI.part hact n hn
          unfold allNodes at this
          simp only [List.mem_append] at this
          rcases this with (h1 | h1) | h1
          · obtain ⟨h, h2, rfl⟩ := List.mem_map.1 h1
            have := (hI.launched h h2 (hlau h h2)).1
            rw [hE.notStarted] at this; cases this
          · have := (hI.doneIff n).2 h1
            rw [hE.notDone] at this; cases this
          · exact h1
        exact hT.picked hI h3 hcap htp
      | none =>
        simp only
        split
        · rename_i hte
          obtain ⟨hk, _⟩ := hI.notClean hact (by rw [h3]; rfl)
          obtain ⟨c, hc, hE⟩ := exists_eligible hwf hI hact (by simp [handles, hk, hte])
            (hI.tpNonempty (.inr h3))
          exact absurd hE (h5 rfl c hc)
        · exact hT.susp hI h3
  · exact hT.ctlLight hI ok h1 (fun d h => h2 ⟨d, h⟩) h3

/-- A callback throws in the prologue. -/
theorem tinv_pro_throw {C : Cfg} (hwf : C.dag.WF) (f : Fault) {tr : List Event}
    (htr : tr <+: (prologue C St.init).trace) :
    TInv C { St.init with phase := .unwinding f.exc, trace := tr } := by
  have hev : ∀ e ∈ tr, e = .resumed ∨ proEv e = true :=
    fun e he => prologue_events hwf e (htr.subset he)
  have hlife : ∀ n, life n tr = [] := by
    intro n
    rw [life, List.filterMap_eq_nil_iff]
    intro e he
    rcases hev e he with rfl | h
    · rfl
    · unfold proEv at h; split at h <;> simp_all [tagOf]
  have hna : ∀ er, Event.afterExecution er ∉ tr := by
    intro er he
    rcases hev _ he with h | h
    · cases h
    · simp [proEv] at h
  constructor
  · intro pre e post heq
    obtain ⟨more, hmore⟩ := htr
    have heq' : tr = pre ++ e :: post := heq
    exact (tinv_prologue hwf).always pre e (post ++ more) (by rw [← hmore, heq']; simp)
  · show recsOf tr = []
    rw [recsOf, List.filterMap_eq_nil_iff]
    intro e he
    rcases hev e he with rfl | h
    · rfl
    · unfold proEv at h; split at h <;> simp_all
  · simp [St.init]
  · simp [St.init, handles]
  · simp [St.init, handles]
  · simp [St.init, ExecRecord.init]
  · intro n _; exact .inl (hlife n)
  · exact .inr (.inr ⟨unwinding_vis f, fun _ => rfl, htr⟩)
  · simp [St.init]
  · simp [St.init]
  · simp [St.init, handles]
  · exact fun er h => absurd h (hna er)
  · simp
  · simp

/-- A callback throws while the first element of `todo` is processed. -/
theorem TInv.stopped {C : Cfg} {s : St} (hI : Inv C s) (hT : TInv C s) (f : Fault) {d : Bool}
    (hp : s.phase = .clean d) {sl : Slot} {rest : List Slot} (ht : s.todo = sl :: rest)
    {evs : List Event} (hal : Always (Guard C) (s.trace ++ evs))
    (hother : ∀ m, m ≠ sl.h.node → life m evs = []) (hrecs : recsOf evs = [])
    (hpro : ∀ e ∈ evs, proEv e = false) (hae : ∀ er, .afterExecution er ∉ evs)
    (hf : sl.h.launched = false → Stopped C (life sl.h.node evs))
    (hl : sl.h.launched = true → s.worker sl.h.node = .finished ∧ life sl.h.node evs = [.log]) :
    TInv C { s with phase := .unwinding f.exc, trace := s.trace ++ evs } := by
  have hact : s.phase.active = true := by rw [hp]; rfl
  have hmem : sl.h ∈ handles s := Inv.slot_mem ht
  have hna := no_afterExec hT (.inl (by rw [hp]; simp [visPhases]))
  have hnd := hI.nodup
  unfold allNodes at hnd
  rw [List.append_assoc, List.nodup_append] at hnd
  have huni : ∀ h ∈ handles s, h.node = sl.h.node → h = sl.h := fun h hm he =>
    List.inj_on_of_nodup_map hnd.1 hm hmem he
  have hntp : sl.h.node ∉ s.toProcess := fun hc =>
    hnd.2.2 sl.h.node (List.mem_map_of_mem hmem) sl.h.node (by simp [hc]) rfl
  have hnrec : ∀ r ∈ s.erec.runs, r.node ≠ sl.h.node := fun r hr hc =>
    hnd.2.2 sl.h.node (List.mem_map_of_mem hmem) r.node
      (List.mem_append_left _ (List.mem_map_of_mem (f := RunRecord.node) hr)) hc.symm
  have hsame : ∀ m, m ≠ sl.h.node → life m (s.trace ++ evs) = life m s.trace := by
    intro m hm; rw [life_append, hother m hm, List.append_nil]
  constructor
  · exact hal
  · show recsOf (s.trace ++ evs) = _
    rw [recsOf_append, hrecs, List.append_nil]; exact hT.recs
  · intro n hn
    show life n (s.trace ++ evs) = _
    rw [hsame n (by rintro rfl; exact hntp hn)]; exact hT.lifeTp n hn
  · intro h hm hl'
    show life h.node (s.trace ++ evs) = _ ∨ (_ ∧ Stopped C (life h.node (s.trace ++ evs)))
    by_cases hc : h.node = sl.h.node
    · have := huni h hm hc
      subst this
      right
      refine ⟨rfl, ?_⟩
      rw [life_append, hT.life_fresh hact hm hl', List.nil_append]
      exact hf hl'
    · left; rw [hsame _ hc]; exact hT.life_fresh hact hm hl'
  · intro h hm hl'
    show life h.node (s.trace ++ evs) = _ ∨ (_ ∧ _ ∧ life h.node (s.trace ++ evs) = _)
    by_cases hc : h.node = sl.h.node
    · have := huni h hm hc
      subst this
      right
      obtain ⟨h1, h2⟩ := hl hl'
      refine ⟨rfl, h1, ?_⟩
      rw [life_append, hT.life_launched hact hm hl', h1, h2]
    · left; rw [hsame _ hc]; exact hT.life_launched hact hm hl'
  · intro r hr
    show life r.node (s.trace ++ evs) = _
    rw [hsame _ (hnrec r hr)]; exact hT.lifeRec r hr
  · intro n hn
    have hn' : n ∉ allNodes s := hn
    have hne : n ≠ sl.h.node := by
      rintro rfl; apply hn'; unfold allNodes; simp only [List.mem_append]
      exact .inl (.inl (List.mem_map_of_mem hmem))
    show life n (s.trace ++ evs) = _ ∨ (_ ∧ life n (s.trace ++ evs) = _)
    rw [hsame _ hne]; exact hT.lifeOther n hn'
  · exact pro_append hT.pro rfl (.inl (by simp [hp, noPro, visPhases])) hpro
  · exact hT.slots
  · exact hT.refs
  · simp [Phase.active]
  · intro er hm
    rcases List.mem_append.1 hm with hm | hm
    · exact absurd hm (hna er)
    · exact absurd hm (hae er)
  · simp
  · simp

theorem TInv.throw {C : Cfg} (hwf : C.dag.WF) {s : St} (hI : Inv C s) (hT : TInv C s) (f : Fault) :
    TInv C (faultStep C s f) := by
  have hT' := hT.ctl hwf hI true
  rcases fault_cases C s f with h | ⟨pre, er, r, ref, post, h1, h2, h3⟩ |
      ⟨pre, e, post, h1, h2, hc, hna, h3⟩ | ⟨_, hph, h3⟩
  · rw [h]; exact hT'
  · rw [h3]
    rcases h1.after_last with hp | ⟨_, d, _, hp⟩
    · exfalso
      unfold ctlStep at h2
      rw [hp] at h2
      simp only at h2
      rw [hI.createdInit hp] at h2
      rcases prologue_events hwf (.afterRun er r ref) (by rw [h2]; simp) with h | h
      · cases h
      · simp [proEv] at h
    · have hna := no_afterExec hT' (.inl (by rw [hp]; simp [visPhases]))
      exact hT'.phase (inv_ctl hwf hI true) (evs := []) rfl rfl rfl rfl rfl rfl (by simp) (by simp)
        (by simp [life]) rfl (by simp) (.inl (by simp [hp, noPro, visPhases]))
        (by simp [Phase.active]) (by simp [Phase.active]) (fun er h => absurd h (hna er)) (by simp)
        (by simp)
  · rw [h3]
    have hal : Always (Guard C) (s.trace ++ (pre ++ [e])) := by
      intro pre' e' post' heq
      exact hT'.always pre' e' (post' ++ post) (by
        rw [h2, List.append_cons, ← List.append_assoc, heq]; simp)
    have hpre : ∀ sl : Slot, ∀ rest d, s.phase = .clean d → s.todo = sl :: rest →
        sl.h.launched = false → pre = [] → e = .beforeRun s.erec sl.h.node →
        TInv C { s with phase := .unwinding f.exc, trace := s.trace ++ (pre ++ [e]) } := by
      rintro sl rest d hp ht hl rfl rfl
      refine hT.stopped hI f hp ht hal ?_ (by simp [recsOf]) (by simp [proEv]) (by simp) ?_
        (by simp [hl])
      · intro m hm; simp [life, tagOf, hm.symm]
      · intro _; left; simp [life, tagOf]
    have hjob : ∀ sl : Slot, ∀ rest d, s.phase = .clean d → s.todo = sl :: rest →
        sl.h.launched = false → C.threadCount = 0 →
        pre = [.beforeRun s.erec sl.h.node, .jobBegin sl.h.node true] → e = .jobEnd sl.h.node →
        TInv C { s with phase := .unwinding f.exc, trace := s.trace ++ (pre ++ [e]) } := by
      rintro sl rest d hp ht hl h0 rfl rfl
      refine hT.stopped hI f hp ht hal ?_ (by simp [recsOf]) (by simp [proEv]) (by simp) ?_
        (by simp [hl])
      · intro m hm; simp [life, tagOf, hm.symm]
      · intro _; right; refine ⟨h0, .inl ?_⟩; simp [life, tagOf]
    generalize hev : pre ++ e :: post = evs at h1 h2
    generalize (ctlStep C s true).phase = ph at h1
    cases h1 with
    | none => simp at hev
    | prologue _ hp he =>
      have hs := hI.createdInit hp
      subst hs
      have : ([] : List Event) ++ (pre ++ [e]) <+: (prologue C St.init).trace := by
        rw [he, ← hev]
        exact ⟨post, by simp [St.init]⟩
      exact tinv_pro_throw hwf f this
    | tick hp ht =>
      rcases pre with _ | ⟨_, pre⟩ <;> simp at hev
      obtain ⟨rfl, rfl⟩ := hev
      have hna := no_afterExec hT (.inl (by rw [hp]; simp [visPhases]))
      refine hT.phase hI (evs := [.onTick s.erec]) rfl rfl rfl rfl rfl rfl (by simp) ?_
        (by simp [life, tagOf]) rfl (by simp [proEv]) (.inl (by simp [hp, noPro, visPhases]))
        (by simp [Phase.active]) (by simp [Phase.active])
        (fun er h => absurd h (by simp [hna er])) (by simp) (by simp)
      intro e pre post heq
      exact hal (s.trace ++ pre) e post (by rw [List.nil_append, heq, List.append_assoc])
    | resumed d hp =>
      rcases pre with _ | ⟨_, pre⟩ <;> simp at hev
      obtain ⟨rfl, rfl⟩ := hev
      have hna := no_afterExec hT (.inl (by rw [hp]; simp [visPhases]))
      refine hT.phase hI (evs := [.resumed]) rfl rfl rfl rfl rfl rfl (by simp) ?_
        (by simp [life, tagOf]) rfl (by simp [proEv]) (.inl (by simp [hp, noPro, visPhases]))
        (by simp [Phase.active]) (by simp [Phase.active])
        (fun er h => absurd h (by simp [hna er])) (by simp) (by simp)
      intro e pre post heq
      exact hal (s.trace ++ pre) e post (by rw [List.nil_append, heq, List.append_assoc])
    | afterExecution hp ht =>
      rcases pre with _ | ⟨_, pre⟩ <;> simp at hev
      obtain ⟨rfl, rfl⟩ := hev
      have hact : s.phase.active = true := by rw [hp]; rfl
      have hhe : handles s = [] := by
        have := (hI.notClean hact (by rw [hp]; rfl)).1
        simp [handles, this, ht]
      refine hT.phase hI (evs := [.afterExecution s.erec]) rfl rfl rfl rfl rfl rfl (by simp) ?_
        (by simp [life, tagOf]) rfl (by simp [proEv]) (.inl (by simp [hp, noPro, visPhases]))
        (by simp [Phase.active]) (by simp [Phase.active])
        (fun er h => ⟨List.mem_cons_of_mem _ (unwinding_vis f), hhe⟩) (by simp) (by simp)
      intro e pre post heq
      exact hal (s.trace ++ pre) e post (by rw [List.nil_append, heq, List.append_assoc])
    | notRun d sl rest r hp ht hl =>
      rcases pre with _ | ⟨_, _ | ⟨_, pre⟩⟩ <;> simp at hev
      · exact hpre sl rest d hp ht hl rfl hev.1
      · exact absurd hev.2.1 (hna _ _ _)
    | launch d sl rest hp ht hl =>
      rcases pre with _ | ⟨_, _ | ⟨_, pre⟩⟩ <;> simp at hev
      · exact hpre sl rest d hp ht hl rfl hev.1
      · exact absurd hev.2.1 ((Fault.cuts_not hc).1 _)
    | asyncFailed d sl rest hp ht hl =>
      rcases pre with _ | ⟨_, pre⟩ <;> simp at hev
      exact hpre sl rest d hp ht hl rfl hev.1
    | deferredUb d sl rest hp ht hl h0 =>
      rcases pre with _ | ⟨_, _ | ⟨_, _ | ⟨_, pre⟩⟩⟩ <;> simp at hev
      · exact hpre sl rest d hp ht hl rfl hev.1
      · exact absurd hev.2.1 ((Fault.cuts_not hc).2 _ _)
      · obtain ⟨rfl, rfl, rfl, _⟩ := hev
        exact hjob sl rest d hp ht hl h0 rfl rfl
    | deferred d sl rest log r hp ht hl h0 =>
      rcases pre with _ | ⟨_, _ | ⟨_, _ | ⟨_, _ | ⟨_, _ | ⟨_, pre⟩⟩⟩⟩⟩ <;> simp at hev
      · exact hpre sl rest d hp ht hl rfl hev.1
      · exact absurd hev.2.1 ((Fault.cuts_not hc).2 _ _)
      · obtain ⟨rfl, rfl, rfl, _⟩ := hev
        exact hjob sl rest d hp ht hl h0 rfl rfl
      · obtain ⟨rfl, rfl, rfl, rfl, _⟩ := hev
        refine hT.stopped hI f hp ht hal ?_ (by simp [recsOf]) (by simp [proEv]) (by simp) ?_
          (by simp [hl])
        · intro m hm; simp [life, tagOf, hm.symm]
        · intro _; right; refine ⟨h0, .inr ?_⟩; simp [life, tagOf]
      · exact absurd hev.2.2.2.2.1 (hna _ _ _)
    | collect d sl rest log r hp ht hl hw =>
      rcases pre with _ | ⟨_, _ | ⟨_, pre⟩⟩ <;> simp at hev
      · obtain ⟨rfl, _⟩ := hev
        refine hT.stopped hI f hp ht hal ?_ (by simp [recsOf]) (by simp [proEv]) (by simp)
          (by simp [hl]) ?_
        · intro m hm; simp [life, tagOf, hm.symm]
        · intro _; exact ⟨hw, by simp [life, tagOf]⟩
      · exact absurd hev.2.1 (hna _ _ _)
  · rw [h3]
    have hna := no_afterExec hT (.inl (by
      rcases hph with h | ⟨d, h⟩ | h | h <;> rw [h] <;> simp [visPhases]))
    exact hT.phase hI (evs := []) rfl rfl rfl rfl rfl rfl (by simp) (by simp)
      (by simp [life]) rfl (by simp)
      (.inl (by rcases hph with h | ⟨d, h⟩ | h | h <;> simp [h, noPro, visPhases]))
      (by simp [Phase.active]) (by simp [Phase.active]) (fun er h => absurd h (hna er)) (by simp)
      (by simp)

theorem TInv.step {C : Cfg} (hwf : C.dag.WF) {s : St} (hI : Inv C s) (hT : TInv C s) (m : Move) :
    TInv C (Joque.step C s m) := by
  cases m with
  | ctl => exact hT.ctl hwf hI true
  | ctlFail => exact hT.ctl hwf hI false
  | fault f => exact hT.throw hwf hI f
  | begin n =>
    simp only [Joque.step]
    split
    · exact hT
    · split
      · rename_i h; exact hT.worker hI (.inl ⟨rfl, rfl, rfl⟩) h
      · exact hT
  | finish n =>
    simp only [Joque.step]
    split
    · exact hT
    · split
      · rename_i h; exact hT.worker hI (.inr ⟨rfl, rfl, rfl⟩) h
      · exact hT
  | destroy => exact hT.destroy hI

theorem both_exec {C : Cfg} (hwf : C.dag.WF) (ms : List Move) :
    Inv C (exec C ms) ∧ TInv C (exec C ms) :=
  foldl_inv (P := fun s => Inv C s ∧ TInv C s)
    (fun _ m h => ⟨inv_step hwf h.1 m, h.2.step hwf h.1 m⟩) ms St.init
    ⟨inv_init C, tinv_init C⟩

theorem tinv_exec {C : Cfg} (hwf : C.dag.WF) (ms : List Move) : TInv C (exec C ms) :=
  (both_exec hwf ms).2

end Joque
