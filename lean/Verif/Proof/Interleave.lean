import Verif.Spec.Interleave
import Verif.Proof.Parallel
import Verif.Props.Hang
import Verif.Props.Sync2

/-! Reaching given interleavings of jobs -/

namespace Joque

variable {C : Cfg}

theorem jobWord_append (a b : List Event) : jobWord (a ++ b) = jobWord a ++ jobWord b :=
  List.filterMap_append ..

theorem begins_mem {tr : List Event} {n : Node} : .begins n ∈ jobWord tr ↔ JobBegan tr n := by
  unfold jobWord JobBegan
  rw [List.mem_filterMap]
  constructor
  · rintro ⟨e, he, h⟩
    cases e <;> simp at h
    subst h
    exact ⟨_, he⟩
  · rintro ⟨b, h⟩
    exact ⟨_, h, rfl⟩

theorem ends_mem {tr : List Event} {n : Node} : .ends n ∈ jobWord tr ↔ JobEnded tr n := by
  unfold jobWord JobEnded
  rw [List.mem_filterMap]
  constructor
  · rintro ⟨e, he, h⟩
    cases e <;> simp at h
    subst h
    exact he
  · intro h
    exact ⟨_, h, rfl⟩

/-- a letter of the word is an event of the history -/
theorem jobWord_split : ∀ {tr : List Event} {p q : List JobEv} {x : JobEv}, jobWord tr = p ++ x :: q →
    ∃ P e Q, tr = P ++ e :: Q ∧ jobWord P = p ∧ jobWord [e] = [x] := by
  intro tr p q x h
  unfold jobWord at h
  obtain ⟨P, R, rfl, hP, hR⟩ := List.filterMap_eq_append_iff.1 h
  obtain ⟨R1, e, Q, rfl, hn, he, hQ⟩ := List.filterMap_eq_cons_iff.1 hR
  refine ⟨P ++ R1, e, Q, by simp, ?_, ?_⟩
  · unfold jobWord
    rw [List.filterMap_append, hP, List.filterMap_eq_nil_iff.2 hn, List.append_nil]
  · unfold jobWord
    rw [List.filterMap_cons, he]
    rfl

theorem jobWord_begins {e : Event} {n : Node} (h : jobWord [e] = [.begins n]) : ∃ b, e = .jobBegin n b := by
  cases e <;> simp [jobWord] at h
  subst h
  exact ⟨_, rfl⟩

theorem jobWord_ends {e : Event} {n : Node} (h : jobWord [e] = [.ends n]) : e = .jobEnd n := by
  cases e <;> simp [jobWord] at h
  subst h
  rfl

/-- with worker threads the control thread enters and leaves no job -/
theorem jobWord_ctl {s : St} (hk : C.threadCount ≠ 0) (hact : s.phase.active = true) :
    jobWord (ctlStep C s true).trace = jobWord s.trace := by
  have hc : ∀ (s : St) ref h rest, jobWord (collect C s ref h rest).trace = jobWord s.trace := by
    intro s ref h rest
    unfold collect complete
    simp only [St.emit]
    split <;> (try split) <;> simp [jobWord]
  unfold ctlStep
  split <;> rename_i hp <;> (try (rw [hp] at hact; cases hact; done))
  · split <;> simp [St.emit, jobWord]
  · unfold cleanStep
    split
    · rfl
    · split
      · unfold startRun complete
        simp only [St.emit, if_neg hk, if_true]
        split
        · rfl
        · split
          · simp [jobWord]
          · split <;> simp [jobWord]
      · split
        · exact hc _ _ _ _
        · rfl
  · unfold pickStep
    split
    · rfl
    · split
      · rfl
      · rfl
      · split <;> rfl
  · simp [St.emit, jobWord]
  · split <;> simp [St.emit, jobWord]
  all_goals rfl

theorem ctlN_exec (ms : List Move) (m : Nat) :
    ctlN C (exec C ms) m = exec C (ms ++ List.replicate m .ctl) := by
  induction m with
  | zero => simp [ctlN]
  | succ m ih =>
    rw [ctlN_succ, ih, List.replicate_succ', ← List.append_assoc, exec_snoc]
    rfl

/-- the control thread goes on until the execution is over or it has to wait for jobs -/
theorem saturate (hG : Healthy C) (hk : C.threadCount ≠ 0) (ms : List Move)
    (hact : (exec C ms).phase.active = true) :
    ∃ m, (exec C (ms ++ List.replicate m .ctl)).phase.active = true ∧
      jobWord (exec C (ms ++ List.replicate m .ctl)).trace = jobWord (exec C ms).trace ∧
      ((exec C (ms ++ List.replicate m .ctl)).phase = .finished ∨
        Idling C (exec C (ms ++ List.replicate m .ctl))) := by
  have key : ∀ v ms, (exec C ms).phase.active = true → remaining (exec C ms) ≤ v →
      ∃ m, (exec C (ms ++ List.replicate m .ctl)).phase.active = true ∧
      jobWord (exec C (ms ++ List.replicate m .ctl)).trace = jobWord (exec C ms).trace ∧
      ((exec C (ms ++ List.replicate m .ctl)).phase = .finished ∨
        Idling C (exec C (ms ++ List.replicate m .ctl))) := by
    intro v
    induction v using Nat.strongRecOn with
    | ind v ih =>
    intro ms hact hv
    -- as long as nothing gets less
    have go : ∀ m, (∃ m', (exec C (ms ++ List.replicate m' .ctl)).phase.active = true ∧
        jobWord (exec C (ms ++ List.replicate m' .ctl)).trace = jobWord (exec C ms).trace ∧
        ((exec C (ms ++ List.replicate m' .ctl)).phase = .finished ∨
          Idling C (exec C (ms ++ List.replicate m' .ctl)))) ∨
        ((exec C (ms ++ List.replicate m .ctl)).phase.active = true ∧
          (exec C (ms ++ List.replicate m .ctl)).phase ≠ .finished ∧
          jobWord (exec C (ms ++ List.replicate m .ctl)).trace = jobWord (exec C ms).trace ∧
          remaining (exec C (ms ++ List.replicate m .ctl)) = remaining (exec C ms)) := by
      intro m
      induction m with
      | zero =>
        by_cases hf : (exec C ms).phase = .finished
        · exact .inl ⟨0, by simpa using hact, by simp, .inl (by simpa using hf)⟩
        · exact .inr ⟨by simpa using hact, by simpa using hf, by simp, by simp⟩
      | succ m ihm =>
        rcases ihm with h | ⟨h1, h2, h3, h4⟩
        · exact .inl h
        have e : exec C (ms ++ List.replicate (m + 1) .ctl) =
            ctlStep C (exec C (ms ++ List.replicate m .ctl)) true := by
          rw [List.replicate_succ', ← List.append_assoc, exec_snoc]; rfl
        have hw := jobWord_ctl (C := C) hk h1
        rw [← e, h3] at hw
        obtain ⟨p1, p2⟩ := ctl_progress hG (inv_exec hG.wf _) h1 h2
        rw [← e] at p1 p2
        rcases p2 with p2 | ⟨p2, -, -⟩
        · left
          obtain ⟨m', q1, q2, q3⟩ := ih _ (by omega) _ p1 (Nat.le_refl _)
          rw [List.append_assoc, ← List.replicate_add] at q1 q2 q3
          exact ⟨_, q1, q2.trans hw, q3⟩
        · by_cases hf : (exec C (ms ++ List.replicate (m + 1) .ctl)).phase = .finished
          · exact .inl ⟨_, p1, hw, .inl hf⟩
          · exact .inr ⟨p1, hf, hw, p2.trans h4⟩
    by_cases hall : ∃ m', (exec C (ms ++ List.replicate m' .ctl)).phase.active = true ∧
        jobWord (exec C (ms ++ List.replicate m' .ctl)).trace = jobWord (exec C ms).trace ∧
        ((exec C (ms ++ List.replicate m' .ctl)).phase = .finished ∨
          Idling C (exec C (ms ++ List.replicate m' .ctl)))
    · exact hall
    · refine ⟨0, by simpa using hact, by simp, .inr ?_⟩
      intro m
      simp only [List.replicate_zero, List.append_nil]
      rcases go m with h | ⟨h1, h2, -, h4⟩
      · exact absurd h hall
      · rw [ctlN_exec]
        exact ⟨inv_exec hG.wf _, h1, h2, h4⟩
  exact key _ ms hact (Nat.le_refl _)

/-- what the control thread waits for is a job that has not been left, and which is entered in some
schedule -/
theorem idling_handle (hG : Healthy C) (ms : List Move) (hid : Idling C (exec C ms)) {x : Handle}
    (hx : x ∈ handles (exec C ms)) : Executes C x.node ∧ ¬ JobEnded (exec C ms).trace x.node := by
  obtain ⟨hI, hT⟩ := both_exec hG.wf ms
  obtain ⟨-, hact, -⟩ := hid 0
  have hact : (exec C ms).phase.active = true := hact
  obtain ⟨h1, h2⟩ := (idling_end hG hid).1 x hx
  have h3 := (hI.launched x hx h1).2.1
  refine ⟨?_, ?_⟩
  · cases hw : (exec C ms).worker x.node with
    | idle => exact absurd hw h3
    | finished => exact absurd hw h2
    | running =>
      refine ⟨ms, ?_⟩
      rw [begin_mem_life, hT.life_launched hact hx h1, hw]
      simp [workerLife]
    | queued =>
      have hd : (exec C ms).phase.dead = false := by
        cases hp : (exec C ms).phase <;> rw [hp] at hact <;> first | rfl | (cases hact)
      refine ⟨ms ++ [.begin x.node], false, ?_⟩
      rw [exec_snoc]
      simp [step, hd, hw, St.emit]
  · rw [end_mem_life, hT.life_launched hact hx h1]
    cases hw : (exec C ms).worker x.node <;> simp_all [workerLife]

/-- if nothing hinders it, a job can be entered as soon as everything that it must come after has been left -/
theorem idling_queued (hG : Healthy C)
    (hra : ∀ a b, HasEdge C.dag .requires a b → AfterEdge C.dag a b) (hU : Unhindered C) (ms : List Move)
    (hid : Idling C (exec C ms)) {n : Node} (hn : Executes C n) (hnb : ¬ JobBegan (exec C ms).trace n)
    (hord : ∀ m, Executes C m → Relation.TransGen (AfterEdge C.dag) n m → JobEnded (exec C ms).trace m) :
    (exec C ms).worker n = .queued := by
  classical
  obtain ⟨hI, hT⟩ := both_exec hG.wf ms
  obtain ⟨-, hact, -⟩ := hid 0
  have hact : (exec C ms).phase.active = true := hact
  obtain ⟨hl, -⟩ := idling_end hG hid
  have hnd := hI.nodup
  unfold allNodes at hnd
  rw [List.nodup_append, List.nodup_append] at hnd
  obtain ⟨⟨hnd1, _, hnd2⟩, _, hnd3⟩ := hnd
  have hopen : ∀ x ∈ handles (exec C ms), ¬ JobEnded (exec C ms).trace x.node :=
    fun x hx => (idling_handle hG ms hid hx).2
  have hexec : ∀ x ∈ handles (exec C ms), Executes C x.node := fun x hx => (idling_handle hG ms hid hx).1
  have hpart := hI.part hact n (hn.node hG.wf)
  unfold allNodes at hpart
  simp only [List.mem_append] at hpart
  rcases hpart with (h | h) | h
  · obtain ⟨x, hx, rfl⟩ := List.mem_map.1 h
    obtain ⟨h1, h2⟩ := hl x hx
    have h3 := (hI.launched x hx h1).2.1
    cases hw : (exec C ms).worker x.node with
    | idle => exact absurd hw h3
    | finished => exact absurd hw h2
    | queued => rfl
    | running =>
      exfalso
      apply hnb
      rw [begin_mem_life, hT.life_launched hact hx h1, hw]
      simp [workerLife]
  · exfalso
    obtain ⟨r, hr, rfl⟩ := List.mem_map.1 h
    exact hnb ((began_of_status hT hr).1.2 (hn.status hG.wf hra ms (by rw [hT.recs]; exact hr) rfl))
  · exfalso
    -- the earliest task that `n` waits for
    let l := (exec C ms).toProcess.filter
      (fun y => decide (Relation.ReflTransGen (AfterEdge C.dag) n y))
    have hlne : l ≠ [] := List.ne_nil_of_mem (List.mem_filter.2 ⟨h, by simpa using .refl⟩)
    obtain ⟨c, hc, hmin⟩ := exists_minimal (R := AfterEdge C.dag) (hI.acyc hact) l.length l
      (Nat.le_refl _) hlne
    obtain ⟨hct, hnc⟩ := List.mem_filter.1 hc
    have hnc : Relation.ReflTransGen (AfterEdge C.dag) n c := by simpa using hnc
    have hcn : c ∈ C.dag.nodes := hI.tp_nodes c hct
    have hdone : ∀ m, AfterEdge C.dag c m → (exec C ms).flags.done m = true := by
      intro m hm
      have hnm : Relation.TransGen (AfterEdge C.dag) n m := Relation.TransGen.tail' hnc hm
      have := hI.part hact m (hG.wf.closed _ hm).2
      unfold allNodes at this
      simp only [List.mem_append] at this
      rcases this with (h | h) | h
      · obtain ⟨y, hy, rfl⟩ := List.mem_map.1 h
        exact absurd (hord _ (hexec y hy) hnm) (hopen y hy)
      · exact (hI.doneIff m).2 h
      · exact absurd hm (hmin m (List.mem_filter.2 ⟨h, by simpa using hnm.to_reflTransGen⟩))
    have notdone : ∀ b, (exec C ms).flags.done b = true →
        b ∉ (exec C ms).toProcess ∧ b ∉ (handles (exec C ms)).map Handle.node := by
      intro b hb
      have hb := (hI.doneIff b).1 hb
      exact ⟨fun h => hnd3 b (List.mem_append_right _ hb) b h rfl, fun h => hnd2 b h b hb rfl⟩
    have hcb : ∀ b, Relation.TransGen (AfterEdge C.dag) c b → (exec C ms).flags.done b = true :=
      fun b hb => done_path hI hb hdone
    have hxb : ∀ x ∈ handles (exec C ms), ∀ b, Relation.TransGen (AfterEdge C.dag) x.node b →
        (exec C ms).flags.done b = true := fun x hx b hb => done_path hI hb (hI.preds x hx)
    have hcx : ∀ x ∈ handles (exec C ms), c ≠ x.node := by
      rintro x hx rfl
      exact hnd3 _ (List.mem_append_left _ (List.mem_map_of_mem hx)) _ hct rfl
    rcases idling_blocked hG hid hct with ⟨-, h2⟩ | ⟨c', hc', h2, h3⟩
    · have := hU.threads (c :: (handles (exec C ms)).map Handle.node)
        (List.nodup_cons.2 ⟨fun h => by
          obtain ⟨x, hx, e⟩ := List.mem_map.1 h
          exact hcx x hx e.symm, hnd1⟩)
        (by
          intro a ha
          rcases List.mem_cons.1 ha with rfl | ha
          · exact hcn
          · obtain ⟨x, hx, rfl⟩ := List.mem_map.1 ha
            exact hI.handle_node hx)
        (by
          intro a ha b hb hab
          have hd : (exec C ms).flags.done b = true := by
            rcases List.mem_cons.1 ha with rfl | ha
            · exact hcb b hab
            · obtain ⟨x, hx, rfl⟩ := List.mem_map.1 ha
              exact hxb x hx b hab
          rcases List.mem_cons.1 hb with rfl | hb
          · exact (notdone _ hd).1 hct
          · exact (notdone _ hd).2 hb)
      simp only [List.length_cons, List.length_map] at this
      omega
    · have hcc : c' = c := by
        by_contra hne
        rcases Relation.reflTransGen_iff_eq_or_transGen.1 h2 with e | h2
        · exact hne e
        · exact (notdone _ (hcb c' h2)).1 hc'
      subst hcc
      rcases h3 with ⟨m, hm, x, hx, rfl⟩ | ⟨r, hr, x, hx, hxr⟩
      · exact (notdone _ (hdone _ hm)).2 (List.mem_map_of_mem hx)
      · exact hU.resources c' hcn x.node (hI.handle_node hx) (hcx x hx)
          (fun h => (notdone _ (hcb _ h)).2 (List.mem_map_of_mem hx))
          (fun h => (notdone _ (hxb x hx _ h)).1 hct) r hr hxr

/-- the control thread does not wait when all jobs have been left -/
theorem idling_open (hG : Healthy C) (ms : List Move) (hid : Idling C (exec C ms))
    (hall : ∀ n, Executes C n → JobEnded (exec C ms).trace n) : False := by
  obtain ⟨hI, hT⟩ := both_exec hG.wf ms
  obtain ⟨-, hact, -⟩ := hid 0
  have hact : (exec C ms).phase.active = true := hact
  have hno : handles (exec C ms) = [] := by
    rw [List.eq_nil_iff_forall_not_mem]
    intro x hx
    exact (idling_handle hG ms hid hx).2 (hall _ (idling_handle hG ms hid hx).1)
  have hset : Settled (exec C ms) := by
    intro n
    cases hw : (exec C ms).worker n with
    | idle => exact .inl rfl
    | finished => exact .inr rfl
    | _ =>
      exfalso
      rcases hI.workerOnly n (by rw [hw]; simp) with ⟨-, h⟩ | ⟨x, hx, -⟩
      · rw [hw] at h; cases h
      · rw [hno] at hx; cases hx
  have key : ∀ m, (ctlN C (exec C ms) m).worker = (exec C ms).worker ∧
      dist (ctlN C (exec C ms) m) + m ≤ dist (exec C ms) := by
    intro m
    induction m with
    | zero => exact ⟨rfl, Nat.le_refl _⟩
    | succ m ih =>
      obtain ⟨h1, h2, h3, h4⟩ := hid m
      have h5 := (hid (m + 1)).2.2.2
      rw [ctlN_succ] at h5 ⊢
      obtain ⟨-, p⟩ := ctl_progress hG h1 h2 h3
      rcases p with p | ⟨-, p1, p2⟩
      · omega
      · have := p2 (by unfold Settled; rw [ih.1]; exact hset)
        exact ⟨p1.trans ih.1, by omega⟩
  have := (key (dist (exec C ms) + 1)).2
  omega

end Joque
