import Verif.Props.Interleave
import Verif.Props.Parallel

/-! Tasks that have nothing to do with each other on a limited number of threads (C119) -/

namespace Joque

variable {C : Cfg}

/-- where nothing makes a task wait but the number of threads, the first one is chosen -/
theorem Apart.first (hA : Apart C) (hwf : C.dag.WF) (ms : List Move) (hp : (exec C ms).phase = .pick)
    {c : Node} {cs : List Node} (htp : (exec C ms).toProcess = c :: cs) :
    findCandidate C.dag C.resources (exec C ms).flags (exec C ms).used (exec C ms).toProcess =
      some (some c) := by
  have hI := inv_exec hwf ms
  generalize exec C ms = s at *
  have hact : s.phase.active = true := by rw [hp]; rfl
  have hct : c ∈ s.toProcess := by rw [htp]; simp
  have hnd := hI.nodup
  unfold allNodes at hnd
  rw [List.nodup_append] at hnd
  have hd : s.flags.done c = false := by
    cases h : s.flags.done c
    · rfl
    · exact absurd rfl (hnd.2.2 c (List.mem_append_right _ ((hI.doneIff c).1 h)) c hct)
  have hes : filterEdges .after (C.dag.outEdges c) = [] := by
    unfold filterEdges Dag.outEdges
    rw [List.filter_eq_nil_iff]
    intro e he hk
    obtain ⟨he, hs⟩ := List.mem_filter.1 he
    refine hA.order e.src e.tgt ?_
    unfold AfterEdge HasEdge
    have hk : e.kind = .after := by simpa using hk
    rw [← hk]
    exact he
  have hres : anyResourceUsed (C.resources c) s.used = false := by
    unfold anyResourceUsed
    rw [List.any_eq_false]
    intro r hr hu
    obtain ⟨h, hh, -, hrh⟩ := hI.usedSub hact r (by simpa using hu)
    refine hA.resources c (hI.tp_nodes c hct) h.node (hI.handle_node hh) ?_ r hr hrh
    rintro rfl
    exact hnd.2.2 _ (List.mem_append_left _ (List.mem_map_of_mem hh)) _ hct rfl
  unfold findCandidate
  rw [htp]
  simp [findCandTop, findCand, hI.tpIdle c hct, hd, hes, candLoop, allDone, hres]

/-- what a portion of the control thread does to the tasks not begun, and where threads are made -/
theorem queue_ctl (hk : C.threadCount ≠ 0) {s : St} (ok : Bool) (hc : s.phase ≠ .created) :
    ((ctlStep C s ok).toProcess = s.toProcess ∨ s.phase = .pick ∧
      ∃ n, findCandidate C.dag C.resources s.flags s.used s.toProcess = some (some n) ∧
        (ctlStep C s ok).toProcess = serase n s.toProcess) ∧
    ∀ n, .launch n ∈ (ctlStep C s ok).trace → .launch n ∈ s.trace ∨
      ((ctlStep C s ok).phase.active = true ∧ n ∈ (handles (ctlStep C s ok)).map Handle.node) := by
  have hcoll : ∀ (s : St) ref h rest, (collect C s ref h rest).toProcess = s.toProcess ∧
      ∀ n, .launch n ∈ (collect C s ref h rest).trace → .launch n ∈ s.trace := by
    intro s ref h rest
    unfold collect complete
    simp only [St.emit]
    split
    · exact ⟨rfl, fun _ h => h⟩
    · split <;> exact ⟨rfl, fun _ h => by simpa using h⟩
  unfold ctlStep
  split
  · rename_i hp; exact absurd hp hc
  · split <;> refine ⟨.inl rfl, fun n hn => .inl ?_⟩
    · exact hn
    · simpa [St.emit] using hn
  · rename_i d hp
    refine ⟨.inl (clean_toProcess s ok _), fun n hn => ?_⟩
    revert hn
    unfold cleanStep
    split
    · exact fun h => .inl h
    · rename_i sl rest ht
      split
      · unfold startRun complete
        simp only [St.emit, if_neg hk]
        split
        · exact fun h => .inl h
        · split
          · intro h; left; simpa using h
          · split
            · intro h; left; simpa using h
            · split
              · intro h
                simp only [List.append_assoc, List.mem_append,
                  List.cons_append, List.nil_append, List.mem_cons, reduceCtorEq, false_or, List.not_mem_nil,
                  or_false, Event.launch.injEq] at h
                rcases h with h | h
                · exact .inl h
                · right
                  subst h
                  refine ⟨by simp [hp, Phase.active], ?_⟩
                  simp [handles]
              · intro h; left; simpa using h
      · split
        · exact fun h => .inl ((hcoll _ _ _ _).2 n h)
        · exact fun h => .inl h
  · rename_i hp
    unfold pickStep
    split
    · exact ⟨.inl rfl, fun _ h => .inl h⟩
    · split
      · exact ⟨.inl rfl, fun _ h => .inl h⟩
      · rename_i n hn
        exact ⟨.inr ⟨hp, n, hn, rfl⟩, fun _ h => .inl h⟩
      · split <;> exact ⟨.inl rfl, fun _ h => .inl h⟩
  · exact ⟨.inl rfl, fun n hn => .inl (by simpa [St.emit] using hn)⟩
  · split
    · exact ⟨.inl rfl, fun n hn => .inl (by simpa [St.emit] using hn)⟩
    · exact ⟨.inl rfl, fun _ h => .inl h⟩
  · split <;> exact ⟨.inl rfl, fun _ h => .inl h⟩
  · split <;> exact ⟨.inl rfl, fun _ h => .inl h⟩
  all_goals exact ⟨.inl rfl, fun _ h => .inl h⟩

/-- tasks are begun in the order of their addresses -/
def InTurn (C : Cfg) (s : St) : Prop :=
  ∀ a ∈ C.dag.nodes, ∀ b ∈ C.dag.nodes, a < b → a ∈ s.toProcess → b ∈ s.toProcess

/-- when the job of `n` was given to a thread, fewer than `k` of those at lower addresses had not been left -/
def FewOpen (C : Cfg) (tr : List Event) : Prop :=
  ∀ n, .launch n ∈ tr → ∀ l : List Node, l.Nodup →
    (∀ m ∈ l, Executes C m ∧ m < n ∧ ¬ JobEnded tr m) → l.length < C.threadCount

/-- the state after a portion of the control thread -/
theorem queue_exec_ctl (hG : Healthy C) (hA : Apart C) (hk : C.threadCount ≠ 0) (ms : List Move)
    (ok : Bool) (ih : InTurn C (exec C ms) ∧ FewOpen C (exec C ms).trace) :
    InTurn C (ctlStep C (exec C ms) ok) ∧ FewOpen C (ctlStep C (exec C ms) ok).trace := by
  have hwf := hG.wf
  obtain ⟨mv, hmv⟩ : ∃ mv, step C (exec C ms) mv = ctlStep C (exec C ms) ok := by
    cases ok
    · exact ⟨.ctlFail, rfl⟩
    · exact ⟨.ctl, rfl⟩
  by_cases hc : (exec C ms).phase = .created
  · have h0 := (inv_exec hwf ms).createdInit hc
    have e : ctlStep C (exec C ms) ok = prologue C St.init := by rw [h0]; rfl
    rw [e]
    constructor
    · intro a ha b hb _ _
      have : (prologue C St.init).toProcess = toProcessOf C.dag := by
        unfold prologue
        simp only
        split <;> (try rfl)
        split <;> rfl
      rw [this]
      exact ((toProcessOf_spec C.dag).2 b).2 hb
    · intro n hn
      exfalso
      rcases prologue_spec hwf with ⟨h, _⟩ | ⟨_, _, _, evs, ht, he, _⟩ | ⟨_, pre, m, post, _, _, _, ht, _⟩
      · exact absurd h hG.acyclic
      · rw [ht] at hn
        simp only [List.cons_append, List.mem_cons, List.mem_append, List.mem_map] at hn
        rcases hn with hn | ⟨_, _, hn⟩ | ⟨_, _, hn⟩ | hn
        · cases hn
        · cases hn
        · cases hn
        · obtain ⟨_, _, h, _⟩ := he _ hn
          cases h
      · rw [ht] at hn
        simp at hn
  · obtain ⟨h1, h2⟩ := ih
    obtain ⟨q1, q2⟩ := queue_ctl (C := C) hk ok hc
    have hturn : InTurn C (ctlStep C (exec C ms) ok) := by
      intro a ha b hb hab hat
      rcases q1 with q1 | ⟨hp, n, hn, q1⟩
      · rw [q1] at hat ⊢
        exact h1 a ha b hb hab hat
      · rw [q1] at hat ⊢
        obtain ⟨hat', -⟩ := List.mem_filter.1 hat
        clear hat
        refine List.mem_filter.2 ⟨h1 a ha b hb hab hat', ?_⟩
        have hI := inv_exec hwf ms
        cases htp : (exec C ms).toProcess with
        | nil => rw [htp] at hat'; cases hat'
        | cons c cs =>
          rw [hA.first hwf ms hp htp] at hn
          obtain rfl : c = n := by simpa using hn
          have hs := hI.tpSorted
          rw [htp, List.pairwise_cons] at hs
          rw [htp] at hat'
          have hca : c ≤ a := by
            rcases List.mem_cons.1 hat' with rfl | hat'
            · exact Nat.le_refl _
            · exact Nat.le_of_lt (hs.1 a hat')
          have : b ≠ c := by
            rintro rfl
            exact absurd hab (Nat.not_lt.2 hca)
          simpa using this
    refine ⟨hturn, fun n hn l hl hm => ?_⟩
    rcases q2 n hn with hn | ⟨hact, hn⟩
    · refine h2 n hn l hl fun m hml => ?_
      obtain ⟨e1, e2, e3⟩ := hm m hml
      refine ⟨e1, e2, fun he => e3 ?_⟩
      have := exec_grows hwf ms [mv]
      rw [exec_snoc, hmv] at this
      exact this.subset he
    · rw [← hmv, ← exec_snoc] at hturn hact hn hm
      obtain ⟨hI, hT⟩ := both_exec hwf (ms ++ [mv])
      have hnd := hI.nodup
      unfold allNodes at hnd
      rw [List.nodup_append, List.nodup_append] at hnd
      have hnt : n ∉ (exec C (ms ++ [mv])).toProcess :=
        fun h => hnd.2.2 n (List.mem_append_left _ hn) n h rfl
      have hnn : n ∈ C.dag.nodes := by
        obtain ⟨x, hx, rfl⟩ := List.mem_map.1 hn
        exact hI.handle_node hx
      have hsub : n :: l ⊆ (handles (exec C (ms ++ [mv]))).map Handle.node := by
        intro m hml
        rcases List.mem_cons.1 hml with rfl | hml
        · exact hn
        obtain ⟨e1, e2, e3⟩ := hm m hml
        have := hI.part hact m (e1.node hwf)
        unfold allNodes at this
        simp only [List.mem_append] at this
        rcases this with (h | h) | h
        · exact h
        · exfalso
          obtain ⟨r, hr, rfl⟩ := List.mem_map.1 h
          have hb := began_of_status hT hr
          exact e3 (hb.2 (hb.1.2 (e1.status hwf (fun a b h => absurd h (hA.requires a b)) _
            (by rw [hT.recs]; exact hr) rfl)))
        · exact absurd (hturn m (e1.node hwf) n hnn e2 h) hnt
      have hndl : (n :: l).Nodup :=
        List.nodup_cons.2 ⟨fun h => absurd (hm n h).2.1 (Nat.lt_irrefl _), hl⟩
      have h3 := (List.subperm_of_subset hndl hsub).length_le
      have h4 := hI.cap hk
      simp only [List.length_cons, List.length_map] at h3
      omega

theorem queue_exec (hG : Healthy C) (hA : Apart C) (hk : C.threadCount ≠ 0) (ms : List Move) :
    InTurn C (exec C ms) ∧ FewOpen C (exec C ms).trace := by
  induction ms using List.reverseRecOn with
  | nil => exact ⟨fun a _ b _ _ h => by simp [exec, St.init] at h, fun n hn => by simp [exec, St.init] at hn⟩
  | append_singleton ms mv ih =>
    have hg := exec_grows hG.wf ms [mv]
    have same : (step C (exec C ms) mv).toProcess = (exec C ms).toProcess →
        (∀ n, .launch n ∈ (step C (exec C ms) mv).trace → .launch n ∈ (exec C ms).trace) →
        InTurn C (exec C (ms ++ [mv])) ∧ FewOpen C (exec C (ms ++ [mv])).trace := by
      intro e1 e3
      rw [exec_snoc] at hg ⊢
      refine ⟨fun a ha b hb hab hat => ?_, fun n hn l hl hm => ?_⟩
      · rw [e1] at hat ⊢
        exact ih.1 a ha b hb hab hat
      · exact ih.2 n (e3 n hn) l hl fun m hml => ⟨(hm m hml).1, (hm m hml).2.1,
          fun he => (hm m hml).2.2 (hg.subset he)⟩
    cases mv with
    | ctl => rw [exec_snoc]; exact queue_exec_ctl hG hA hk ms true ih
    | ctlFail => rw [exec_snoc]; exact queue_exec_ctl hG hA hk ms false ih
    | fault f =>
      rcases fault_cases C (exec C ms) f with h1 | ⟨_, _, _, _, _, _, h2, h1⟩ | ⟨pre, e, post, hem, h2, hcut, _, h1⟩ |
        ⟨_, _, h1⟩
      · rw [exec_snoc]
        show InTurn C (faultStep C _ f) ∧ FewOpen C (faultStep C _ f).trace
        rw [h1]
        exact queue_exec_ctl hG hA hk ms true ih
      · rw [exec_snoc]
        show InTurn C (faultStep C _ f) ∧ FewOpen C (faultStep C _ f).trace
        rw [h1]
        exact queue_exec_ctl hG hA hk ms true ih
      · apply same
        · show (faultStep C _ f).toProcess = _
          rw [h1]
        · intro n hn
          change .launch n ∈ (faultStep C _ f).trace at hn
          rw [h1] at hn
          rcases List.mem_append.1 hn with hn | hn
          · exact hn
          · exfalso
            have hcl : ∀ m, f.cuts (.launch m) = false := by intro m; cases f <;> rfl
            generalize hes : pre ++ e :: post = evs at hem
            generalize (ctlStep C (exec C ms) true).phase = ph at hem
            have hn' : .launch n ∈ evs := by
              rw [← hes]
              rcases List.mem_append.1 hn with h | h
              · exact List.mem_append_left _ h
              · rw [List.mem_singleton] at h
                simp [h]
            obtain ⟨r, m, hpre'⟩ : ∃ r m, evs = [.beforeRun r m, .launch n] := by
              rcases hem with _ | ⟨_, hp, he⟩ | _ | _ | _ | _ | _ | _ | _ | _ | _ <;> (try simp at hn')
              · exfalso
                rw [(inv_exec hG.wf ms).createdInit hp] at he
                rcases prologue_events hG.wf (.launch n) (by rw [he]; exact List.mem_append_right _ hn') with h | h <;>
                  cases h
              · subst hn'
                exact ⟨_, _, rfl⟩
            rw [hpre'] at hes
            rcases pre with _ | ⟨x, _ | ⟨y, pre⟩⟩ <;> simp only [List.nil_append, List.cons_append, List.cons.injEq] at hes
            · rw [hes.1] at hn
              simp at hn
            · rw [hes.2.1, hcl] at hcut
              cases hcut
            · exact absurd hes.2.2 (by simp)
      · apply same
        · show (faultStep C _ f).toProcess = _
          rw [h1]
        · intro n hn
          change .launch n ∈ (faultStep C _ f).trace at hn
          rw [h1] at hn
          exact hn
    | begin n =>
      apply same <;> simp only [step] <;> split <;> (try split) <;> simp [St.emit]
    | finish n =>
      apply same <;> simp only [step] <;> split <;> (try split) <;> simp [St.emit]
    | destroy =>
      apply same <;> simp only [step, destroyStep] <;> split <;> simp

/-- the same at every moment of the history -/
theorem fewOpen_prefix (hG : Healthy C) (hA : Apart C) (hk : C.threadCount ≠ 0) :
    ∀ (ms : List Move) (P Q : List Event), (exec C ms).trace = P ++ Q → FewOpen C P := by
  intro ms
  induction ms using List.reverseRecOn with
  | nil =>
    intro P Q h n hn
    simp only [exec, List.foldl_nil, St.init] at h
    rw [(List.append_eq_nil_iff.1 h.symm).1] at hn
    cases hn
  | append_singleton ms mv ih =>
    intro P Q h n hn l hl hm
    obtain ⟨evs, h1, h2⟩ := step_events hG.wf (inv_exec hG.wf ms) mv
    rw [exec_snoc, h1] at h
    rcases List.append_eq_append_iff.1 h with ⟨p, h3, h4⟩ | ⟨p, h3, h4⟩
    · subst h3
      rcases List.mem_append.1 hn with hn | hn
      · exact ih _ [] (by simp) n hn l hl fun m hml => ⟨(hm m hml).1, (hm m hml).2.1,
          fun he => (hm m hml).2.2 (List.mem_append_left _ he)⟩
      · refine (queue_exec hG hA hk (ms ++ [mv])).2 n ?_ l hl fun m hml => ⟨(hm m hml).1, (hm m hml).2.1, fun he => ?_⟩
        · rw [exec_snoc, h1, h4]
          simp [hn]
        · rw [exec_snoc, h1] at he
          rcases List.mem_append.1 he with he | he
          · exact (hm m hml).2.2 (List.mem_append_left _ he)
          · have hne : .launch n ∈ evs := by rw [h4]; simp [hn]
            cases h2 with
            | none => cases he
            | begin => simp at he
            | «end» => simp at hne
            | ctl _ post ph hem hpro =>
              have hne' : .launch n ∈ evs ++ post := List.mem_append_left _ hne
              have he' : .jobEnd m ∈ evs ++ post := List.mem_append_left _ he
              generalize evs ++ post = x at *
              rcases hem with _ | ⟨_, hp, _⟩ | _ | _ | _ | _ | _ | _ | _ | _ | _ <;> (try simp at hne') <;> (try simp at he')
              rcases hpro hp _ he with h | h <;> cases h
    · exact ih P p h3 n hn l hl hm

/-- **C119**, tasks that have nothing to do with each other.  With `k` threads a job is entered only when fewer
than `k` of the jobs at lower addresses have not been left. -/
theorem C119_queue_only (C : Cfg) (hG : Healthy C) (hA : Apart C) (hk : 1 ≤ C.threadCount) (ms : List Move) :
    Queued (fun n => ∃ ms, JobBegan (exec C ms).trace n) C.threadCount (jobWord (exec C ms).trace) := by
  have hk : C.threadCount ≠ 0 := by omega
  have h := C119_only C hG.wf (fun a b h => absurd h (hA.requires a b)) ms
  refine ⟨h.once, h.which, h.ends, fun p n q e l hl hm => ?_⟩
  obtain ⟨P, e', Q, htr, hP, he⟩ := jobWord_split e
  obtain ⟨b, rfl⟩ := jobWord_begins he
  refine fewOpen_prefix hG hA hk ms P _ htr n ?_ l hl fun m hml => ⟨(hm m hml).1, (hm m hml).2.1, ?_⟩
  · rw [launch_mem_life]
    have h1 := C15_node_history C hG.wf ms n
    rw [htr, life_append] at h1
    have e1 : life n (.jobBegin n b :: Q) = .begin b :: life n Q := by simp [life, tagOf]
    rw [e1] at h1
    generalize life n P = l at *
    rcases h1 with h1 | ⟨-, h1⟩ | ⟨h1, -⟩
    · obtain ⟨r, h1⟩ := h1
      have := congrArg (fun l => Tag.begin b ∈ l) h1
      simp at this
    · obtain ⟨r, h1⟩ := h1
      rcases l with _ | ⟨a, _ | ⟨b, _ | ⟨c, _ | ⟨d, _ | ⟨e, _ | ⟨f, _ | ⟨g, l⟩⟩⟩⟩⟩⟩⟩ <;> simp at h1 ⊢ ; simp_all
    · exact absurd h1 hk
  · rw [← ends_mem, hP]
    exact (hm m hml).2.2

/-- **C119**, tasks that have nothing to do with each other.  All these ways are possible. -/
theorem C119_queue_possible (C : Cfg) (hG : Healthy C) (hA : Apart C) (hk : 1 ≤ C.threadCount) (w : List JobEv)
    (hw : Queued (fun n => ∃ ms, JobBegan (exec C ms).trace n) C.threadCount w) :
    ∃ ms, (exec C ms).phase.active = true ∧ jobWord (exec C ms).trace = w := by
  have hk : C.threadCount ≠ 0 := by omega
  have hra : ∀ a b, HasEdge C.dag .requires a b → AfterEdge C.dag a b := fun a b h => absurd h (hA.requires a b)
  have hdead : ∀ s : St, s.phase.active = true → s.phase.dead = false := by
    intro s h
    cases hp : s.phase <;> rw [hp] at h <;> first | rfl | (cases h)
  induction w using List.reverseRecOn with
  | nil =>
    refine ⟨[.ctl], ?_, ?_⟩
    · show (prologue C St.init).phase.active = true
      rw [prologue_healthy hG]; rfl
    · show jobWord (prologue C St.init).trace = []
      unfold jobWord
      rw [List.filterMap_eq_nil_iff]
      intro e hem
      rcases prologue_events hG.wf e hem with rfl | h
      · rfl
      · cases e <;> first | rfl | cases h
  | append_singleton w x ih =>
    have hnd := hw.once
    rw [List.nodup_append] at hnd
    have hx : x ∉ w := fun h => hnd.2.2 x h x (by simp) rfl
    obtain ⟨ms, hact, hms⟩ := ih ⟨hnd.1, fun n hn => hw.which n (by simp [hn]),
      fun p n q e => hw.ends p n (q ++ [x]) (by rw [e]; simp),
      fun p n q e => hw.turn p n (q ++ [x]) (by rw [e]; simp)⟩
    cases x with
    | ends n =>
      have hb := hw.ends w n [] rfl
      rw [← hms, begins_mem] at hb
      rw [← hms, ends_mem] at hx
      obtain ⟨hr, -⟩ := running_worker (inv_exec hG.wf ms) (tinv_exec hG.wf ms) ⟨hb, hx⟩
      refine ⟨ms ++ [.finish n], ?_, ?_⟩ <;> rw [exec_snoc]
      · simpa [step, hdead _ hact, hr, St.emit] using hact
      · simp only [step, hdead _ hact, hr, St.emit, if_true, Bool.false_eq_true, if_false]
        rw [jobWord_append, hms]
        rfl
    | begins n =>
      obtain ⟨m, h1, h2, h3⟩ := saturate hG hk ms hact
      rw [hms] at h2
      generalize hms' : ms ++ List.replicate m .ctl = ms' at *
      have hnb : ¬ JobBegan (exec C ms').trace n := by
        rw [← begins_mem, h2]; exact hx
      have hn : Executes C n := hw.which n (by simp)
      obtain ⟨hI, hT⟩ := both_exec hG.wf ms'
      have hrec : ∀ r ∈ (exec C ms').erec.runs, r.node ≠ n := by
        rintro r hr rfl
        exact hnb ((began_of_status hT hr).1.2 (hn.status hG.wf hra ms' (by rw [hT.recs]; exact hr) rfl))
      have hq : (exec C ms').worker n = .queued := by
        rcases h3 with h3 | hid
        · exfalso
          obtain ⟨hp, -⟩ := C02_one_record C hG.wf _ h3
          obtain ⟨r, hr, hrn⟩ := List.mem_map.1 (hp.mem_iff.2 (hn.node hG.wf))
          exact hrec r hr hrn
        · have hpart := hI.part h1 n (hn.node hG.wf)
          unfold allNodes at hpart
          simp only [List.mem_append] at hpart
          rcases hpart with (h | h) | h
          · obtain ⟨x, hxh, rfl⟩ := List.mem_map.1 h
            obtain ⟨h4, h5⟩ := (idling_end hG hid).1 x hxh
            have h6 := (hI.launched x hxh h4).2.1
            cases hw : (exec C ms').worker x.node with
            | idle => exact absurd hw h6
            | finished => exact absurd hw h5
            | queued => rfl
            | running =>
              exfalso
              apply hnb
              rw [begin_mem_life, hT.life_launched h1 hxh h4, hw]
              simp [workerLife]
          · obtain ⟨r, hr, hrn⟩ := List.mem_map.1 h
            exact absurd hrn (hrec r hr)
          · exfalso
            have hndp := hI.nodup
            unfold allNodes at hndp
            rw [List.nodup_append, List.nodup_append] at hndp
            obtain ⟨⟨hnd1, _, _⟩, _, hnd3⟩ := hndp
            rcases idling_blocked hG hid h with ⟨-, hfull⟩ | ⟨c, hc, -, ⟨y, hy, -⟩ | ⟨r, hr, x, hx, hxr⟩⟩
            · have := hw.turn w n [] rfl ((handles (exec C ms')).map Handle.node) hnd1 (by
                intro y hy
                obtain ⟨x, hx, rfl⟩ := List.mem_map.1 hy
                obtain ⟨e1, e2⟩ := idling_handle hG ms' hid hx
                refine ⟨e1, ?_, by rw [← h2, ends_mem]; exact e2⟩
                rcases Nat.lt_trichotomy x.node n with hlt | he | hlt
                · exact hlt
                · exact (hnd3 _ (List.mem_append_left _ hy) _ h he).elim
                · exact (hnd3 _ (List.mem_append_left _ hy) _
                    ((queue_exec hG hA hk ms').1 n (hn.node hG.wf) _ (e1.node hG.wf) hlt h) rfl).elim)
              rw [List.length_map] at this
              omega
            · exact hA.order c y hy
            · refine hA.resources c (hI.tp_nodes c hc) x.node (hI.handle_node hx) ?_ r hr hxr
              rintro rfl
              exact hnd3 _ (List.mem_append_left _ (List.mem_map_of_mem hx)) _ hc rfl
      refine ⟨ms' ++ [.begin n], ?_, ?_⟩ <;> rw [exec_snoc]
      · simpa [step, hdead _ h1, hq, St.emit] using h1
      · simp only [step, hdead _ h1, hq, St.emit, if_true, Bool.false_eq_true, if_false]
        rw [jobWord_append, h2]
        rfl

/-- **C119**, tasks that have nothing to do with each other, exactly: the ways in which `k` threads can have
entered and left their jobs at some moment. -/
theorem C119_queue_exact (C : Cfg) (hG : Healthy C) (hA : Apart C) (hk : 1 ≤ C.threadCount) (w : List JobEv) :
    (∃ ms, jobWord (exec C ms).trace = w) ↔
      Queued (fun n => ∃ ms, JobBegan (exec C ms).trace n) C.threadCount w := by
  constructor
  · rintro ⟨ms, rfl⟩
    exact C119_queue_only C hG hA hk ms
  · intro h
    obtain ⟨ms, -, h⟩ := C119_queue_possible C hG hA hk w h
    exact ⟨ms, h⟩

/-- **C119**, the same for executions that come to their end. -/
theorem C119_queue_whole (C : Cfg) (hG : Healthy C) (hA : Apart C) (hk : 1 ≤ C.threadCount) (w : List JobEv) :
    (∃ ms, (exec C ms).phase = .finished ∧ jobWord (exec C ms).trace = w) ↔
      Queued (fun n => ∃ ms, JobBegan (exec C ms).trace n) C.threadCount w ∧
      AllLeft (fun n => ∃ ms, JobBegan (exec C ms).trace n) w := by
  constructor
  · rintro ⟨ms, hfin, rfl⟩
    refine ⟨C119_queue_only C hG hA hk ms, fun n hn => ?_⟩
    have hT := tinv_exec hG.wf ms
    obtain ⟨hp, -⟩ := C02_one_record C hG.wf ms hfin
    obtain ⟨r, hr, rfl⟩ := List.mem_map.1 (hp.mem_iff.2 (Executes.node hG.wf hn))
    have h1 := began_of_status hT hr
    rw [ends_mem]
    exact h1.2 (h1.1.2 (Executes.status hG.wf (fun a b h => absurd h (hA.requires a b)) hn ms
      (by rw [hT.recs]; exact hr) rfl))
  · rintro ⟨h, hall⟩
    obtain ⟨ms, hact, rfl⟩ := C119_queue_possible C hG hA hk w h
    obtain ⟨m, -, h2, h3⟩ := saturate hG (by omega) ms hact
    refine ⟨_, ?_, h2⟩
    rcases h3 with h3 | h3
    · exact h3
    · exact (idling_open hG _ h3 fun n hn => ends_mem.1 (h2 ▸ hall n hn)).elim

/-! An example: three tasks that have nothing to do with each other on two threads. -/

def Ex.lone : Cfg := { Ex.par 2 with resources := fun n => [n] }

theorem Ex.lone_healthy : Healthy Ex.lone where
  wf := (Ex.par_healthy 2).wf
  acyclic := (Ex.par_healthy 2).acyclic
  jobs := (Ex.par_healthy 2).jobs
  answers := (Ex.par_healthy 2).answers
  codes := (Ex.par_healthy 2).codes

theorem Ex.lone_apart : Apart Ex.lone where
  order := fun a b h => by simp [AfterEdge, HasEdge, Ex.lone, Ex.par] at h
  requires := fun a b h => by simp [HasEdge, Ex.lone, Ex.par] at h
  resources := by
    intro a _ b _ hne r hr hr'
    simp only [Ex.lone, List.mem_singleton] at hr hr'
    exact hne (hr.symm.trans hr')

theorem Ex.lone_runs (n : Node) : (∃ ms, JobBegan (exec Ex.lone ms).trace n) ↔ n = 1 ∨ n = 2 ∨ n = 3 := by
  constructor
  · intro h
    have := Executes.node Ex.lone_healthy.wf h
    simp only [Ex.lone, Ex.par, List.mem_cons, List.not_mem_nil, or_false] at this
    tauto
  · have h : ∀ n, n = 1 ∨ n = 2 ∨ n = 3 → Event.jobBegin n false ∈ (exec Ex.lone (List.replicate 20 .ctl ++
      [.begin 2, .begin 1, .finish 1] ++ List.replicate 20 .ctl ++ [.begin 3])).trace := by
      rintro n (rfl | rfl | rfl) <;> decide +kernel
    exact fun hn => ⟨_, false, h n hn⟩

/-- 3 is entered and left before 1 has been entered -/
def Ex.loneWord : List JobEv := [.begins 2, .ends 2, .begins 3, .ends 3, .begins 1, .ends 1]

/-- this happens -/
example : ∃ ms, (exec Ex.lone ms).phase = .finished ∧ jobWord (exec Ex.lone ms).trace = Ex.loneWord := by
  refine (C119_queue_whole Ex.lone Ex.lone_healthy Ex.lone_apart (by decide) _).2 ⟨⟨by decide, ?_, ?_, ?_⟩, ?_⟩
  · intro n hn
    rw [Ex.lone_runs]
    simp [Ex.loneWord] at hn
    tauto
  · intro p n q e
    have h1 : p = Ex.loneWord.take p.length := by rw [e]; simp
    have h2 : Ex.loneWord[p.length]? = some (.ends n) := by rw [e]; simp
    rw [h1]
    generalize p.length = i at *
    rcases i with _ | _ | _ | _ | _ | _ | i <;> simp [Ex.loneWord] at h2 <;> subst h2 <;> decide
  · intro p n q e l hl hm
    have h1 : p = Ex.loneWord.take p.length := by rw [e]; simp
    have h2 : Ex.loneWord[p.length]? = some (.begins n) := by rw [e]; simp
    show l.length < 2
    have hsub : l ⊆ [1] := by
      intro m hml
      obtain ⟨e1, e2, e3⟩ := hm m hml
      rw [h1] at e3
      generalize p.length = i at *
      rcases i with _ | _ | _ | _ | _ | _ | i <;> simp [Ex.loneWord] at h2 <;> subst h2 <;>
        rcases (Ex.lone_runs m).1 e1 with rfl | rfl | rfl <;> simp [Ex.loneWord] at e2 e3 ⊢
    have := (List.subperm_of_subset hl hsub).length_le
    simp at this
    omega
  · intro n hn
    rcases (Ex.lone_runs n).1 hn with rfl | rfl | rfl <;> decide

/-- 3 cannot be entered while neither 1 nor 2 has been left -/
example : ∀ ms, jobWord (exec Ex.lone ms).trace ≠ [.begins 1, .begins 3] := by
  intro ms h
  have := ((C119_queue_exact Ex.lone Ex.lone_healthy Ex.lone_apart (by decide) _).1 ⟨ms, h⟩).turn
    [.begins 1] 3 [] rfl [1, 2] (by decide) (by
      intro m hm
      refine ⟨(Ex.lone_runs m).2 (by simp at hm; tauto), ?_, by simp⟩
      simp at hm
      rcases hm with rfl | rfl <;> decide)
  exact absurd this (by decide)

end Joque
