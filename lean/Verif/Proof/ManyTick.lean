import Verif.Proof.OneTick

/-! # The number of ticks with several threads -/

namespace Joque

variable {C : Cfg} {d : Node → Nat}

/-- the tick in which the first thread for the job of `n` was created -/
def launchTick (tr : List Event) (n : Node) : Nat :=
  (tr.takeWhile fun e => decide (e ≠ .launch n)).count .resumed

theorem takeWhile_split (tr : List Event) {n : Node} (h : .launch n ∈ tr) :
    ∃ q, tr = tr.takeWhile (fun e => decide (e ≠ .launch n)) ++ .launch n :: q := by
  induction tr with
  | nil => cases h
  | cons e tr ih =>
    by_cases he : e = .launch n
    · subst he
      exact ⟨tr, by simp⟩
    · obtain ⟨q, hq⟩ := ih ((List.mem_cons.1 h).resolve_left (fun h => he h.symm))
      refine ⟨q, ?_⟩
      rw [List.takeWhile_cons, if_pos (by simpa using he), List.cons_append, ← hq]

theorem launchTick_spec {tr : List Event} {n : Node} (h : .launch n ∈ tr) :
    LaunchedIn tr n (launchTick tr n) := by
  obtain ⟨q, hq⟩ := takeWhile_split tr h
  exact ⟨_, q, hq, rfl⟩

theorem takeWhile_stable {tr x : List Event} {n : Node} (h : .launch n ∈ tr) :
    (tr ++ x).takeWhile (fun e => decide (e ≠ .launch n)) = tr.takeWhile (fun e => decide (e ≠ .launch n)) := by
  induction tr with
  | nil => cases h
  | cons e tr ih =>
    rw [List.cons_append, List.takeWhile_cons, List.takeWhile_cons]
    by_cases he : e = .launch n
    · rw [if_neg (by simpa using he), if_neg (by simpa using he)]
    · rw [if_pos (by simpa using he), if_pos (by simpa using he),
        ih ((List.mem_cons.1 h).resolve_left (fun h => he h.symm))]

theorem launchTick_stable {tr x : List Event} {n : Node} (h : .launch n ∈ tr) :
    launchTick (tr ++ x) n = launchTick tr n := by
  unfold launchTick
  rw [takeWhile_stable h]

theorem launchTick_le (tr : List Event) (n : Node) : launchTick tr n ≤ tr.count .resumed :=
  (List.takeWhile_sublist _).count_le _

/-- for how long the jobs of some coroutines have been on their threads, in ticks -/
def elapsedOf (tr : List Event) (L : List Handle) : Nat :=
  (L.map fun h => if h.launched then tr.count .resumed - launchTick tr h.node else 0).sum

theorem elapsedOf_append (tr : List Event) (L M : List Handle) :
    elapsedOf tr (L ++ M) = elapsedOf tr L + elapsedOf tr M := by
  simp [elapsedOf]

theorem elapsedOf_cons (tr : List Event) (h : Handle) (L : List Handle) : elapsedOf tr (h :: L) =
    (if h.launched then tr.count .resumed - launchTick tr h.node else 0) + elapsedOf tr L := by
  simp [elapsedOf]

theorem elapsedOf_ext {tr evs : List Event} (hev : .resumed ∉ evs) {L : List Handle}
    (hl : ∀ h ∈ L, h.launched = true → .launch h.node ∈ tr) :
    elapsedOf (tr ++ evs) L = elapsedOf tr L := by
  unfold elapsedOf
  congr 1
  refine List.map_congr_left fun h hm => ?_
  by_cases hh : h.launched = true
  · rw [if_pos hh, if_pos hh, launchTick_stable (hl h hm hh), List.count_append, List.count_eq_zero.2 hev]
    rfl
  · rw [if_neg hh, if_neg hh]

theorem elapsedOf_next {tr : List Event} {L : List Handle}
    (hl : ∀ h ∈ L, h.launched = true → .launch h.node ∈ tr) :
    elapsedOf (tr ++ [.resumed]) L = elapsedOf tr L + L.countP Handle.launched := by
  induction L with
  | nil => rfl
  | cons h L ih =>
    have ih := ih fun x hx => hl x (List.mem_cons_of_mem _ hx)
    rw [elapsedOf_cons, elapsedOf_cons, ih, List.countP_cons]
    by_cases hh : h.launched = true
    · have := launchTick_le tr h.node
      rw [if_pos hh, if_pos hh, if_pos hh, launchTick_stable (hl h (by simp) hh), List.count_append]
      simp
      omega
    · rw [if_neg hh, if_neg hh, if_neg hh]
      omega

def St.elapsed (s : St) : Nat := elapsedOf s.trace (handles s)

/-- a tick that starts nothing passes while a job is on a thread -/
def ManyTick (C : Cfg) (d : Node → Nat) (s : St) : Prop :=
  match s.phase with
  | .loopTop | .clean _ | .pick =>
      s.tick + s.toProcess.length ≤ C.dag.nodes.length + 1 + s.erec.took d + s.elapsed
  | .susp false => s.tick + s.toProcess.length ≤
      C.dag.nodes.length + s.erec.took d + s.elapsed + (handles s).countP Handle.launched
  | .susp true => (s.todo = [] ∧
        s.tick + s.toProcess.length ≤ C.dag.nodes.length + 1 + s.erec.took d + s.elapsed) ∨
      s.tick + s.toProcess.length ≤
        C.dag.nodes.length + s.erec.took d + s.elapsed + (handles s).countP Handle.launched
  | .drainTop => (s.todo ≠ [] →
        s.tick + s.toProcess.length ≤ C.dag.nodes.length + 1 + s.erec.took d + s.elapsed) ∧
      s.tick + s.toProcess.length ≤ C.dag.nodes.length + 2 + s.erec.took d + s.elapsed
  | .finished => s.tick + s.toProcess.length ≤ C.dag.nodes.length + 2 + s.erec.took d + s.elapsed
  | _ => True

theorem ManyTick.inactive {s : St} (h : s.phase.active = false) : ManyTick C d s := by
  unfold ManyTick
  split <;> rename_i hp <;> first | trivial | (rw [hp] at h; cases h)

theorem many_clean (hc : C.threadCount ≠ 0) {s : St} (hI : Inv C s) (hT : TInv C s) (h : ManyTick C d s)
    {b : Bool} (hp : s.phase = .clean b) (ok : Bool) (hd : TookSoFar d (cleanStep C s ok b).trace) :
    ManyTick C d (cleanStep C s ok b) := by
  have hact : s.phase.active = true := by rw [hp]; rfl
  unfold ManyTick at h
  rw [hp] at h
  dsimp only at h
  cases ht : s.todo with
  | nil =>
    have hz := zip_h (p := s.passed) (k := s.kept) hI.passedLen
    have hst : cleanStep C s ok b = { s with
        todo := List.zipWith Slot.mk s.passed s.kept
        kept := []
        passed := []
        phase := if b then .susp true else .pick } := by
      unfold cleanStep; rw [ht]
    have hhd : handles (cleanStep C s ok b) = handles s := by
      rw [hst]; simp [handles, hz, ht]
    have he : (cleanStep C s ok b).elapsed = s.elapsed := by
      unfold St.elapsed
      rw [hhd, hst]
    unfold ManyTick
    rw [he, hhd, hst]
    cases b
    · exact h
    · show _ ∨ _
      cases hk : s.kept with
      | nil => left; exact ⟨by simp, h⟩
      | cons x k =>
        right
        have : 0 < (handles s).countP Handle.launched :=
          List.countP_pos_iff.2 ⟨x, by simp [handles, hk], hI.keptLaunched x (by simp [hk])⟩
        show s.tick + s.toProcess.length ≤ _ + s.erec.took d + _ + _
        omega
  | cons sl rest =>
    have hmem : sl.h ∈ handles s := Inv.slot_mem ht
    have hhs : handles s = s.kept ++ sl.h :: rest.map Slot.h := by simp [handles, ht]
    have hle : ∀ x ∈ handles s, x.launched = true → .launch x.node ∈ s.trace :=
      fun x hx hl => launched_event hT hact hx hl
    have hel : s.elapsed = elapsedOf s.trace s.kept +
        ((if sl.h.launched then s.trace.count .resumed - launchTick s.trace sl.h.node else 0) +
          elapsedOf s.trace (rest.map Slot.h)) := by
      unfold St.elapsed
      rw [hhs, elapsedOf_append, elapsedOf_cons]
    have hother : ∀ evs, .resumed ∉ evs → elapsedOf (s.trace ++ evs) (s.kept ++ rest.map Slot.h) =
        elapsedOf s.trace s.kept + elapsedOf s.trace (rest.map Slot.h) := by
      intro evs hev
      rw [elapsedOf_ext hev, elapsedOf_append]
      intro x hx
      refine hle x ?_
      rw [hhs]
      rcases List.mem_append.1 hx with hx | hx <;> simp [hx]
    -- the task of the first slot is settled
    have settled : ∀ (s' : St) evs, s'.trace = s.trace ++ evs → .resumed ∉ evs →
        s'.kept = s.kept → s'.todo = rest → s'.phase = .clean b → s'.toProcess = s.toProcess →
        s.tick + s.toProcess.length ≤ C.dag.nodes.length + 1 + s'.erec.took d +
          (elapsedOf s.trace s.kept + elapsedOf s.trace (rest.map Slot.h)) → ManyTick C d s' := by
      intro s' evs h1 h2 h3 h4 h5 h6 h7
      have e1 : s'.elapsed = elapsedOf s.trace s.kept + elapsedOf s.trace (rest.map Slot.h) := by
        rw [← hother evs h2]
        unfold St.elapsed
        rw [h1]
        simp only [handles, h3, h4]
      have e2 : s'.tick = s.tick := by
        unfold St.tick; rw [h1, List.count_append, List.count_eq_zero.2 h2]; rfl
      unfold ManyTick
      rw [h5]
      dsimp only
      rw [e1, e2, h6]
      exact h7
    revert hd
    unfold cleanStep
    rw [ht]
    dsimp only
    split
    · rename_i hl
      intro _
      have hl : sl.h.launched = false := by simpa using hl
      rw [hl] at hel
      simp only [Bool.false_eq_true, if_false, Nat.zero_add] at hel
      have hlife := hT.life_fresh hact hmem hl
      have hno : .launch sl.h.node ∉ s.trace := by
        intro hj
        have := launch_mem_life.1 hj
        rw [hlife] at this
        cases this
      unfold startRun
      simp only
      split
      · exact .inactive rfl
      · split
        · refine settled _ [.beforeRun s.erec sl.h.node, .afterRun s.erec _ sl.ref]
            (by simp [complete, St.emit]; rfl) (by simp) rfl rfl hp rfl ?_
          simp only [complete, St.emit]
          rw [took_push_not (by simp), ← hel]
          exact h
        · split
          · refine settled _ [.beforeRun s.erec sl.h.node, .afterRun s.erec _ sl.ref]
              (by simp [complete, St.emit]; rfl) (by simp) rfl rfl hp rfl ?_
            simp only [complete, St.emit]
            rw [took_push_not (by simp), ← hel]
            exact h
          · split
            · unfold ManyTick
              simp only [St.emit, hp]
              have key : ∀ s' : St, s'.trace = s.trace ++ [.beforeRun s.erec sl.h.node, .launch sl.h.node] →
                  s'.kept = s.kept → (∃ x : Handle, s'.todo = ⟨sl.ref, x⟩ :: rest) → s'.toProcess = s.toProcess →
                  s'.erec = s.erec →
                  s'.tick + s'.toProcess.length ≤ C.dag.nodes.length + 1 + s'.erec.took d + s'.elapsed := by
                intro s' h1 h2 ⟨x, h3⟩ h4 h5
                have e1 : s.elapsed ≤ s'.elapsed := by
                  rw [hel, ← hother [.beforeRun s.erec sl.h.node, .launch sl.h.node] (by simp), ← h1,
                    elapsedOf_append]
                  unfold St.elapsed
                  simp only [handles, h2, h3, List.map_cons]
                  rw [elapsedOf_append, elapsedOf_cons]
                  omega
                have e2 : s'.tick = s.tick := by unfold St.tick; rw [h1]; simp
                rw [e2, h4, h5]
                omega
              exact key _ (by simp) rfl ⟨_, rfl⟩ rfl rfl
            · exact .inactive rfl
    · rename_i hl
      have hl : sl.h.launched = true := by simpa using hl
      rw [hl] at hel
      simp only [if_true] at hel
      split
      · intro hd
        cases hrc : (asyncLambda (C.outcome sl.h.node)).retcode with
        | none =>
          refine .inactive ?_
          unfold collect
          simp only [hrc]
          rfl
        | some rc =>
          obtain ⟨log, r, c0, c01, c02⟩ := collect_trace (C := C) (s := s) (ref := sl.ref) (h := sl.h)
            (rest := rest) hrc
          obtain ⟨c1, c2, c3, c4, c5, -⟩ := remaining_collect (C := C) (s := s) (ref := sl.ref)
            (h := sl.h) (rest := rest) hrc
          have c6 := collect_erec (C := C) (d := d) (s := s) (ref := sl.ref) (h := sl.h) (rest := rest) hrc
          refine settled _ _ c0 (by simp) c2 c3 (c5.trans hp) c1 ?_
          have hj := launchTick_spec (hle _ hmem hl)
          have h2 := hd sl.h.node _ s.tick (by rw [c0]; exact hj.grow)
            ⟨s.trace ++ [.runLog sl.h.node log], s.erec, r, sl.ref, [], by rw [c0]; simp, c01, c02,
              by simp [St.tick]⟩
          have h3 : s.trace.count .resumed = s.tick := rfl
          rw [c6]
          rw [h3] at hel
          omega
      · intro _
        have hhd : ({ s with kept := s.kept ++ [sl.h], passed := s.passed ++ [sl.ref], todo := rest } : St).elapsed
            = s.elapsed := by
          unfold St.elapsed
          simp [handles, ht]
        unfold ManyTick
        rw [hhd]
        dsimp only
        rw [hp]
        exact h

/-- what the choice of a task does -/
theorem pick_what (hwf : C.dag.WF) {s : St} (hI : Inv C s) (hp : s.phase = .pick)
    (ha : (pickStep C s).phase.active = true) : (pickStep C s).erec = s.erec ∧
    ((∃ x : Handle, x.launched = false ∧ handles (pickStep C s) = handles s ++ [x] ∧
      s.toProcess.length = (pickStep C s).toProcess.length + 1) ∨
    (handles (pickStep C s) = handles s ∧ s.todo ≠ [] ∧ (pickStep C s).toProcess = s.toProcess)) := by
  unfold pickStep at ha ⊢
  split at ha
  · rename_i hl
    rw [if_pos hl]
    refine ⟨rfl, .inr ⟨rfl, fun h0 => ?_, rfl⟩⟩
    rw [h0] at hl
    simp at hl
  · rename_i hl
    rw [if_neg hl]
    split at ha
    · cases ha
    · rename_i n hn
      have hmem : n ∈ s.toProcess := by
        obtain ⟨r, hr, hr1, _⟩ := findCandidate_spec (res := C.resources) (f := s.flags)
          (used := s.used) hwf hI.tp_nodes
        rw [hn] at hr
        cases hr
        obtain ⟨hE, hnn⟩ := hr1 n rfl
        exact (waiting_iff hI hp hnn).1 (by simp [Flags.waiting, hE.notStarted, hE.notDone])
      have hlen := serase_length hmem (hI.tpSorted.imp Nat.ne_of_lt)
      exact ⟨rfl, .inl ⟨{ node := n, launched := false, start := 0 }, rfl, by simp [handles], hlen.symm⟩⟩
    · split at ha
      · cases ha
      · rename_i hne
        rw [if_neg hne]
        exact ⟨rfl, .inr ⟨rfl, hne, rfl⟩⟩

theorem many_ctl (hwf : C.dag.WF) (hc : C.threadCount ≠ 0) {s : St} (hI : Inv C s) (hT : TInv C s)
    (h : TookSoFar d s.trace → ManyTick C d s) (ok : Bool)
    (hd : TookSoFar d (ctlStep C s ok).trace) : ManyTick C d (ctlStep C s ok) := by
  have h : ManyTick C d s := by
    refine h ?_
    obtain ⟨evs, e1, -⟩ := ctl_events C s ok
    rw [e1] at hd
    exact hd.of_append
  by_cases ha : (ctlStep C s ok).phase.active = true
  swap
  · exact .inactive (by simpa using ha)
  unfold ManyTick at h
  cases hp : s.phase with
  | created =>
    have hs := hI.createdInit hp
    have he : ctlStep C s ok = prologue C St.init := by
      unfold ctlStep; rw [hp]; simp only; rw [hs]
    rw [he] at ha ⊢
    have h1 := prologue_length hwf
    have h2 := ticks_prologue hwf
    rcases prologue_spec hwf with ⟨_, c, _, hp, _⟩ | ⟨_, _, hp, _⟩ |
        ⟨_, pre, n, post, _, _, _, _, ⟨_, hp⟩ | ⟨_, w, _, hp⟩⟩
    · rw [hp] at ha; cases ha
    · unfold ManyTick
      rw [hp]
      dsimp only
      rw [tick_ticks, h1, h2]
      omega
    · rw [hp] at ha; cases ha
    · rw [hp] at ha; cases ha
  | loopTop =>
    have hact : s.phase.active = true := by rw [hp]; rfl
    rw [hp] at h
    dsimp only at h
    unfold ctlStep
    rw [hp]
    dsimp only
    split
    · exact ⟨fun _ => h, by
        show s.tick + s.toProcess.length ≤ C.dag.nodes.length + 2 + s.erec.took d + s.elapsed
        omega⟩
    · have e : ({ s.emit (.onTick s.erec) with phase := .clean false } : St).elapsed = s.elapsed :=
        elapsedOf_ext (by simp) fun x hx hl => launched_event hT hact hx hl
      have e' : ({ s.emit (.onTick s.erec) with phase := .clean false } : St).tick = s.tick := by
        simp [St.tick, St.emit]
      unfold ManyTick
      rw [e, e']
      exact h
  | clean b =>
    have he : ctlStep C s ok = cleanStep C s ok b := by unfold ctlStep; rw [hp]
    rw [he] at hd ⊢
    exact many_clean hc hI hT h hp ok hd
  | pick =>
    have hact : s.phase.active = true := by rw [hp]; rfl
    have he : ctlStep C s ok = pickStep C s := by unfold ctlStep; rw [hp]
    rw [he] at ha ⊢
    rw [hp] at h
    dsimp only at h
    obtain ⟨p1, p2, -⟩ := pick_shape hwf hI hp ha
    obtain ⟨p3, p4⟩ := pick_what hwf hI hp ha
    have h6 : (pickStep C s).tick = s.tick := by unfold St.tick; rw [p2]
    unfold ManyTick
    rw [p1]
    dsimp only
    rw [h6, p3]
    rcases p4 with ⟨x, hx, p4, p5⟩ | ⟨p4, p5, p6⟩
    · have : (pickStep C s).elapsed = s.elapsed := by
        unfold St.elapsed
        rw [p2, p4, elapsedOf_append, elapsedOf_cons, hx]
        simp [elapsedOf]
      rw [this]
      omega
    · have : (pickStep C s).elapsed = s.elapsed := by
        unfold St.elapsed
        rw [p2, p4]
      rw [this, p4, p6]
      obtain ⟨sl, hsl⟩ := List.exists_mem_of_ne_nil _ p5
      have : 0 < (handles s).countP Handle.launched := List.countP_pos_iff.2
        ⟨sl.h, by simp only [handles, List.mem_append, List.mem_map]; exact .inr ⟨sl, hsl, rfl⟩,
          hI.pickLaunched hp sl hsl⟩
      omega
  | susp b =>
    have hact : s.phase.active = true := by rw [hp]; rfl
    rw [hp] at h
    have e : ∀ p, ({ s.emit .resumed with phase := p } : St).elapsed =
        s.elapsed + (handles s).countP Handle.launched := fun p =>
      elapsedOf_next fun x hx hl => launched_event hT hact hx hl
    have e' : ∀ p, ({ s.emit .resumed with phase := p } : St).tick = s.tick + 1 := by
      intro p; simp [St.tick, St.emit]
    unfold ctlStep
    rw [hp]
    dsimp only
    unfold ManyTick
    rw [e, e']
    cases b
    · show s.tick + 1 + s.toProcess.length ≤ C.dag.nodes.length + 1 + s.erec.took d + _
      dsimp only at h
      omega
    · show (s.todo ≠ [] → s.tick + 1 + s.toProcess.length ≤ C.dag.nodes.length + 1 + s.erec.took d + _) ∧
        s.tick + 1 + s.toProcess.length ≤ C.dag.nodes.length + 2 + s.erec.took d + _
      rcases h with ⟨h1, h2⟩ | h
      · exact ⟨fun h0 => absurd h1 h0, by omega⟩
      · exact ⟨fun _ => by omega, by omega⟩
  | drainTop =>
    have hact : s.phase.active = true := by rw [hp]; rfl
    rw [hp] at h
    dsimp only at h
    unfold ctlStep
    rw [hp]
    dsimp only
    split
    · have e : ({ s.emit (.afterExecution s.erec) with phase := .finished } : St).elapsed = s.elapsed :=
        elapsedOf_ext (by simp) fun x hx hl => launched_event hT hact hx hl
      have e' : ({ s.emit (.afterExecution s.erec) with phase := .finished } : St).tick = s.tick := by
        simp [St.tick, St.emit]
      unfold ManyTick
      rw [e, e']
      exact h.2
    · rename_i h0
      exact h.1 h0
  | unwinding e =>
    unfold ctlStep at ha; rw [hp] at ha; dsimp only at ha
    split at ha
    · cases ha
    · rw [hp] at ha; cases ha
  | destroying =>
    unfold ctlStep at ha; rw [hp] at ha; dsimp only at ha
    split at ha
    · cases ha
    · rw [hp] at ha; cases ha
  | finished => unfold ctlStep at ha; rw [hp] at ha; cases ha
  | threw e => unfold ctlStep at ha; rw [hp] at ha; cases ha
  | destroyed => unfold ctlStep at ha; rw [hp] at ha; dsimp only at ha; rw [hp] at ha; cases ha
  | ub => unfold ctlStep at ha; rw [hp] at ha; dsimp only at ha; rw [hp] at ha; cases ha
  | abort => unfold ctlStep at ha; rw [hp] at ha; dsimp only at ha; rw [hp] at ha; cases ha
  | outOfFuel => unfold ctlStep at ha; rw [hp] at ha; dsimp only at ha; rw [hp] at ha; cases ha

theorem many_step (hwf : C.dag.WF) (hc : C.threadCount ≠ 0) {s : St} (hI : Inv C s) (hT : TInv C s)
    (h : TookSoFar d s.trace → ManyTick C d s) (m : Move)
    (hd : TookSoFar d (step C s m).trace) : ManyTick C d (step C s m) := by
  have worker : ∀ (e : Event) w, e ≠ .resumed →
      TookSoFar d ({ s.emit e with worker := w } : St).trace → ManyTick C d { s.emit e with worker := w } := by
    intro e w h2 hd
    have h := h (TookSoFar.of_append hd)
    by_cases ha : s.phase.active = true
    swap
    · refine .inactive ?_
      show s.phase.active = false
      simpa using ha
    have e1 : ({ s.emit e with worker := w } : St).elapsed = s.elapsed :=
      elapsedOf_ext (by simpa using h2.symm) fun x hx hl => launched_event hT ha hx hl
    have ht : ({ s.emit e with worker := w } : St).tick = s.tick := by
      simp [St.tick, St.emit, h2]
    unfold ManyTick at h ⊢
    rw [ht, e1]
    exact h
  cases m with
  | ctl => exact many_ctl hwf hc hI hT h true hd
  | ctlFail => exact many_ctl hwf hc hI hT h false hd
  | fault f =>
    change TookSoFar d (faultStep C s f).trace at hd
    show ManyTick C d (faultStep C s f)
    rcases fault_cases C s f with h1 | ⟨_, _, _, _, _, _, _, h1⟩ | ⟨pre, e, post, _, h2, _, _, h1⟩ |
      ⟨_, _, h1⟩
    · rw [h1] at hd ⊢; exact many_ctl hwf hc hI hT h true hd
    · rw [h1]; exact .inactive rfl
    · rw [h1]; exact .inactive rfl
    · rw [h1]; exact .inactive rfl
  | begin n =>
    simp only [step] at hd ⊢
    split at hd
    · rename_i h1; rw [if_pos h1]; exact h hd
    · rename_i h1
      rw [if_neg h1]
      split at hd
      · rename_i h2; rw [if_pos h2]; exact worker _ _ (by simp) hd
      · rename_i h2; rw [if_neg h2]; exact h hd
  | finish n =>
    simp only [step] at hd ⊢
    split at hd
    · rename_i h1; rw [if_pos h1]; exact h hd
    · rename_i h1
      rw [if_neg h1]
      split at hd
      · rename_i h2; rw [if_pos h2]; exact worker _ _ (by simp) hd
      · rename_i h2; rw [if_neg h2]; exact h hd
  | destroy =>
    revert hd
    simp only [step, destroyStep]
    split <;> first | exact h | (intro _; exact .inactive rfl)

theorem many_exec (hwf : C.dag.WF) (hc : C.threadCount ≠ 0) (ms : List Move) :
    TookSoFar d (exec C ms).trace → ManyTick C d (exec C ms) := by
  induction ms using List.reverseRecOn with
  | nil => exact fun _ => .inactive rfl
  | append_singleton ms m ih =>
    obtain ⟨hI, hT⟩ := both_exec (C := C) hwf ms
    rw [exec_snoc]
    exact many_step hwf hc hI hT ih m

end Joque
