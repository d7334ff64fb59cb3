import Verif.Props.Exec6
import Verif.Props.Race

/-! Reaching a moment at which given jobs all run -/

namespace Joque

variable {C : Cfg}

/-- in some schedule the job of `x` begins -/
def Executes (C : Cfg) (x : Node) : Prop := ∃ ms, JobBegan (exec C ms).trace x

theorem Executes.node (hwf : C.dag.WF) {x : Node} (h : Executes C x) : x ∈ C.dag.nodes := by
  obtain ⟨ms, b, hb⟩ := h
  obtain ⟨i, hi⟩ := List.getElem?_of_mem hb
  exact began_node hwf ms hi

/-- a task that is executed in some schedule is executed in each: its record is never SKIP or
DEPF -/
theorem Executes.status (hwf : C.dag.WF)
    (hra : ∀ a b, HasEdge C.dag .requires a b → AfterEdge C.dag a b) {x : Node}
    (h : Executes C x) (ms : List Move) {r : RunRecord} (hr : r ∈ recsOf (exec C ms).trace)
    (hx : r.node = x) : r.status = .ok ∨ r.status = .fail := by
  obtain ⟨ms0, b, hb⟩ := h
  obtain ⟨pre, post, htr⟩ := List.append_of_mem hb
  obtain ⟨hI0, hT0⟩ := both_exec hwf ms0
  obtain ⟨hI, hT⟩ := both_exec hwf ms
  have hst := (hT0.always pre _ post htr).2.2.2.2.2.1
  have h6 := C06_status_meaning C hwf ms r hr
  cases hs : r.status with
  | ok => exact .inl rfl
  | fail => exact .inr rfl
  | skip =>
    rw [hs] at h6
    exact absurd (hx ▸ hst) h6.2.2.2.1
  | depf =>
    exfalso
    have hR := hI.recs r (hT.recs ▸ hr)
    obtain ⟨_, _, m, hm, hf⟩ := hR.depf hs
    obtain ⟨r1, hr1, hr1n, hbad⟩ := (hI.failedIff m).1 hf
    rw [hx] at hm
    have haft := hra _ _ hm
    obtain ⟨⟨r2, hr2, hr2n⟩, _⟩ := C01_ordering C hwf ms0 pre post x m b htr haft
    have hr2' : r2 ∈ recsOf (exec C ms0).trace := by
      rw [htr]; unfold recsOf at hr2 ⊢; rw [List.filterMap_append]
      exact List.mem_append_left _ hr2
    have hsame : SameProblem C C id :=
      ⟨fun _ _ _ h => h, fun _ _ c _ h => ⟨c, h, rfl⟩, fun _ _ => rfl, fun _ _ => rfl⟩
    have heq := (C07_schedule_independence C C id hwf hwf hsame hra hra ms ms0 r1 r2
      (by rw [hT.recs]; exact hr1) hr2' (by rw [hr1n, hr2n]; rfl)).1
    have hB : Bad r2 := by
      unfold Bad; rw [← heq]
      simpa [badStatus] using hbad
    exact (C05_failed_dependency C hwf ms0 x m hm haft r2 hr2' hr2n hB).1 ⟨b, hb⟩

/-- none of the jobs of `S` has been left -/
def Held (S : List Node) (s : St) : Prop := ∀ x ∈ S, ¬ JobEnded s.trace x

theorem Held.ctl {S : List Node} {s : St} (hk : C.threadCount ≠ 0) (hact : s.phase.active = true)
    (h : Held S s) : Held S (ctlStep C s true) := by
  intro x hx hj
  apply h x hx
  have hc : ∀ (s : St) ref h rest, .jobEnd x ∈ (collect C s ref h rest).trace →
      .jobEnd x ∈ s.trace := by
    intro s ref h rest
    unfold collect complete
    simp only [St.emit]
    split <;> (try split) <;> simp
  unfold JobEnded at hj ⊢
  unfold ctlStep at hj
  split at hj <;> rename_i hp <;> (try (rw [hp] at hact; cases hact; done))
  · split at hj <;> simpa [St.emit] using hj
  · unfold cleanStep at hj
    split at hj
    · exact hj
    · split at hj
      · unfold startRun complete at hj
        simp only [St.emit, if_neg hk, if_true] at hj
        split at hj
        · exact hj
        · split at hj
          · simpa using hj
          · split at hj <;> simpa using hj
      · split at hj
        · exact hc _ _ _ _ hj
        · exact hj
  · unfold pickStep at hj
    split at hj
    · exact hj
    · split at hj
      · exact hj
      · exact hj
      · split at hj <;> exact hj
  · simpa [St.emit] using hj
  · split at hj <;> simpa [St.emit] using hj
  · exact hj

theorem Held.begin {S : List Node} {s : St} (h : Held S s) (n : Node) :
    Held S (step C s (.begin n)) := by
  intro x hx hj
  apply h x hx
  unfold JobEnded at hj ⊢
  simp only [step] at hj
  split at hj
  · exact hj
  · split at hj
    · simpa [St.emit] using hj
    · exact hj

theorem Held.finish {S : List Node} {s : St} (h : Held S s) {n : Node} (hn : n ∉ S) :
    Held S (step C s (.finish n)) := by
  intro x hx hj
  apply h x hx
  have hne : x ≠ n := fun e => hn (e ▸ hx)
  unfold JobEnded at hj ⊢
  simp only [step] at hj
  split at hj
  · exact hj
  · split at hj
    · simpa [St.emit, hne] using hj
    · exact hj

/-- a held job is not recorded and its worker has not finished -/
theorem Held.spec {S : List Node} (hwf : C.dag.WF)
    (hra : ∀ a b, HasEdge C.dag .requires a b → AfterEdge C.dag a b)
    (hex : ∀ x ∈ S, Executes C x) (ms : List Move) (hact : (exec C ms).phase.active = true)
    (h : Held S (exec C ms)) {x : Node} (hx : x ∈ S) :
    x ∉ recNodes (exec C ms) ∧ (exec C ms).worker x ≠ .finished := by
  obtain ⟨hI, hT⟩ := both_exec hwf ms
  have h1 : x ∉ recNodes (exec C ms) := by
    intro hm
    obtain ⟨r, hr, rfl⟩ := List.mem_map.1 hm
    have hs := (hex _ hx).status hwf hra ms (r := r) (by rw [hT.recs]; exact hr) rfl
    have := began_of_status hT hr
    exact h _ hx (this.2 (this.1.2 hs))
  refine ⟨h1, fun hw => ?_⟩
  rcases hI.workerOnly x (by rw [hw]; simp) with ⟨h2, _⟩ | ⟨hd, hm, rfl, hl⟩
  · exact h1 h2
  · have := hT.life_launched hact hm hl
    rw [hw] at this
    apply h _ hx
    rw [end_mem_life, this]; simp [workerLife]

/-- a launched job whose worker is in it is running -/
theorem running_of_worker (hwf : C.dag.WF) (ms : List Move)
    (hact : (exec C ms).phase.active = true) {h : Handle} (hm : h ∈ handles (exec C ms))
    (hl : h.launched = true) (hw : (exec C ms).worker h.node = .running) :
    Running (exec C ms).trace h.node := by
  obtain ⟨hI, hT⟩ := both_exec hwf ms
  have := hT.life_launched hact hm hl
  rw [hw] at this
  rw [Running, begin_mem_life, end_mem_life, this]
  simp [workerLife]

theorem pick_less (hG : Healthy C) {s : St} (hI : Inv C s) (hp : s.phase = .pick)
    (hlt : s.todo.length < C.threadCount) {c : Node} (hc : c ∈ s.toProcess)
    (hE : Eligible C.dag C.resources s.flags s.used c) :
    remaining (pickStep C s) < remaining s := by
  have hact : s.phase.active = true := by rw [hp]; rfl
  obtain ⟨hk, _⟩ := hI.notClean hact (by rw [hp]; rfl)
  unfold pickStep
  rw [if_neg (by omega)]
  obtain ⟨r, hr, h1, h2⟩ := findCandidate_spec (res := C.resources) (f := s.flags)
    (used := s.used) hG.wf hI.tp_nodes
  rw [hr]
  cases r with
  | none => exact absurd hE (h2 rfl c hc)
  | some n =>
    obtain ⟨hE, hn⟩ := h1 n rfl
    have hnt : n ∈ s.toProcess := by
      have := hI.part hact n hn
      unfold allNodes at this
      simp only [List.mem_append] at this
      rcases this with (hn | hn) | hn
      · exfalso
        obtain ⟨x, hx, rfl⟩ := List.mem_map.1 hn
        have hl : x.launched = true := by
          simp only [handles, hk, List.nil_append] at hx
          obtain ⟨sl, hsl, rfl⟩ := List.mem_map.1 hx
          exact hI.pickLaunched hp sl hsl
        have := (hI.launched x hx hl).1
        rw [hE.notStarted] at this; cases this
      · have := (hI.doneIff n).2 hn
        rw [hE.notDone] at this; cases this
      · exact hn
    have hlen := serase_length hnt (sorted_nodup hI.tpSorted)
    simp only [remaining, handles, hk, List.nil_append, List.map_append, List.sum_append,
      List.map_cons, List.map_nil, List.sum_cons, List.sum_nil]
    have : wt s.worker { node := n, launched := false, start := 0 } = 4 := by simp [wt]
    rw [this]
    omega

end Joque
