import Verif.Proof.Preset2

/-! # A node marked as failed -/

namespace Joque

/-- the event is not the beginning of a job -/
def Event.noBegin : Event → Prop
  | .jobBegin _ _ => False
  | _ => True

def QueryOut.events : QueryOut → List Event
  | .ok _ s => s.events
  | .ub ev => ev
  | .threw _ ev => ev

theorem queryLoop_noBegin (hasJob : Node → Bool) (ask : Node → InvalOut) :
    ∀ (ns tp : List Node) (s : PSt), (∀ e ∈ s.events, e.noBegin) →
      ∀ e ∈ (queryLoop hasJob ask ns tp s).events, e.noBegin := by
  intro ns
  induction ns with
  | nil => intro tp s h; exact h
  | cons m ns ih =>
    intro tp s h
    have key : ∀ (v : Inval) (l : Str) (tp' : List Node), ∀ e ∈ (queryLoop hasJob ask ns tp'
        ⟨setInval s.inval m v, s.events ++ [.jobInval m v l]⟩).events, e.noBegin := by
      intro v l tp'
      refine ih _ _ ?_
      intro e he
      rcases List.mem_append.1 he with h1 | h1
      · exact h e h1
      · rw [List.mem_singleton.1 h1]; trivial
    unfold queryLoop
    split
    · split
      · exact h
      · split
        · exact key _ _ _
        · exact key _ _ _
    · exact h

theorem propEdges_noBegin (seen : List Node) :
    ∀ (es : List Edge) (tp : List Node) (s : PSt), (∀ e ∈ s.events, e.noBegin) →
      ∀ e ∈ (propEdges seen es tp s).2.events, e.noBegin := by
  intro es
  induction es with
  | nil => intro tp s h; exact h
  | cons d es ih =>
    intro tp s h
    unfold propEdges
    split
    · exact ih _ _ h
    · refine ih _ _ ?_
      intro e he
      rcases List.mem_append.1 he with h1 | h1
      · exact h e h1
      · rw [List.mem_singleton.1 h1]; trivial

def PropOut.evs : PropOut → List Event
  | .ok s => s.events
  | .ub ev => ev
  | .threw _ ev => ev
  | _ => []

theorem propLoop_noBegin (g : Dag) :
    ∀ (fuel : Nat) (tp seen : List Node) (s : PSt), (∀ e ∈ s.events, e.noBegin) →
      ∀ e ∈ (propLoop g fuel tp seen s).evs, e.noBegin := by
  intro fuel
  induction fuel with
  | zero => intro tp seen s _ e he; cases he
  | succ fuel ih =>
    intro tp seen s h
    cases tp with
    | nil => exact h
    | cons p tp =>
      unfold propLoop
      dsimp only
      split
      · intro e he; cases he
      · exact ih _ _ _ (propEdges_noBegin _ _ _ _ h)

theorem propagate_noBegin (g : Dag) (hasJob : Node → Bool) (ask : Node → InvalOut)
    (tp : List Node) (i : Node → Inval) :
    ∀ e ∈ (propagateInvalidation g hasJob ask tp i).evs, e.noBegin := by
  have h := queryLoop_noBegin hasJob ask tp [] ⟨i, []⟩ (by intro e he; cases he)
  unfold propagateInvalidation
  generalize queryLoop hasJob ask tp [] ⟨i, []⟩ = a at h
  cases a with
  | ok t s => exact propLoop_noBegin g _ _ _ _ h
  | ub ev => exact h
  | threw w ev => exact h

/-- nothing that requires `n` is ever run -/
structure Doomed (g : Dag) (n : Node) (s : St) : Prop where
  failed : s.flags.failed n = true
  kept : ∀ h ∈ s.kept, HasEdge g .requires h.node n → h.launched = false
  todo : ∀ sl ∈ s.todo, HasEdge g .requires sl.h.node n → sl.h.launched = false
  idle : ∀ x, HasEdge g .requires x n → s.worker x = .idle
  recs : ∀ r ∈ s.erec.runs, HasEdge g .requires r.node n → r.status = .depf
  noBegin : ∀ x b, HasEdge g .requires x n → Event.jobBegin x b ∉ s.trace

theorem Doomed.setPhase {g : Dag} {n : Node} {s : St} (h : Doomed g n s) (p : Phase) :
    Doomed g n { s with phase := p } :=
  ⟨h.failed, h.kept, h.todo, h.idle, h.recs, h.noBegin⟩

theorem Doomed.emit {g : Dag} {n : Node} {s : St} (h : Doomed g n s) {e : Event}
    (he : ∀ x b, HasEdge g .requires x n → e ≠ .jobBegin x b) : Doomed g n (s.emit e) :=
  ⟨h.failed, h.kept, h.todo, h.idle, h.recs, fun x b hx hm => by
    rcases List.mem_append.1 hm with h1 | h1
    · exact h.noBegin x b hx h1
    · exact he x b hx (List.mem_singleton.1 h1).symm⟩

theorem Doomed.tail {g : Dag} {n : Node} {s : St} (h : Doomed g n s) {l : List Slot}
    (hl : ∀ sl ∈ l, sl ∈ s.todo) : Doomed g n { s with todo := l } :=
  ⟨h.failed, h.kept, fun sl hsl => h.todo sl (hl sl hsl), h.idle, h.recs, h.noBegin⟩

theorem Doomed.complete {g : Dag} {n : Node} {s : St} (h : Doomed g n s) (ref : Node)
    {rest : List Slot} (hl : ∀ sl ∈ rest, sl ∈ s.todo) {r : RunRecord}
    (hr : HasEdge g .requires r.node n → r.status = .depf) :
    Doomed g n (complete s ref rest r) := by
  have h1 := (h.emit (e := .afterRun s.erec r ref) (by intro x b _ hc; cases hc)).tail
    (l := rest) hl
  refine ⟨h1.failed, h1.kept, h1.todo, h1.idle, ?_, h1.noBegin⟩
  intro q hq
  rcases List.mem_append.1 (show q ∈ s.erec.runs ++ [r] from hq) with h2 | h2
  · exact h.recs q h2
  · rw [List.mem_singleton.1 h2]; exact hr

theorem Doomed.flags {g : Dag} {n : Node} {s : St} (h : Doomed g n s) {f : Flags}
    (hf : f.failed n = true) (u : List Res) : Doomed g n { s with flags := f, used := u } :=
  ⟨hf, h.kept, h.todo, h.idle, h.recs, h.noBegin⟩

theorem Doomed.collect {C : Cfg} {n : Node} {s : St} (h : Doomed C.dag n s) (ref : Node)
    {hd : Handle} {rest : List Slot} (hl : ∀ sl ∈ rest, sl ∈ s.todo)
    (hh : ¬ HasEdge C.dag .requires hd.node n) : Doomed C.dag n (collect C s ref hd rest) := by
  unfold Joque.collect
  dsimp only
  split
  · exact h.setPhase _
  · have h1 := h.emit (e := .runLog hd.node (asyncLambda (C.outcome hd.node)).log)
      (by intro x b _ hc; cases hc)
    split
    · refine Doomed.complete (h1.flags (f := _) ?_ _) ref hl ?_
      · exact le_setFlag _ _ _ h.failed
      · exact fun hc => absurd hc hh
    · refine Doomed.complete (h1.flags (f := _) ?_ _) ref hl ?_
      · exact h.failed
      · exact fun hc => absurd hc hh

theorem Doomed.clean {C : Cfg} {n : Node} {s : St} (h : Doomed C.dag n s) (ok d : Bool) :
    Doomed C.dag n (cleanStep C s ok d) := by
  unfold cleanStep
  split
  · refine ⟨h.failed, ?_, ?_, h.idle, h.recs, h.noBegin⟩
    · intro x hx; cases hx
    · intro sl hsl
      obtain ⟨a, b, _, hb, rfl⟩ : ∃ a b, a ∈ s.passed ∧ b ∈ s.kept ∧ sl = ⟨a, b⟩ := by
        obtain ⟨k, hk, he⟩ := List.getElem_of_mem hsl
        rw [List.getElem_zipWith] at he
        exact ⟨_, _, List.getElem_mem _, List.getElem_mem _, he.symm⟩
      exact h.kept b hb
  · rename_i sl rest ht
    have hl : ∀ x ∈ rest, x ∈ s.todo := by intro x hx; rw [ht]; exact List.mem_cons_of_mem _ hx
    have hsl := h.todo sl (by rw [ht]; exact List.mem_cons_self ..)
    split
    · unfold startRun
      dsimp only
      split
      · exact h.setPhase _
      · have h1 := h.emit (e := .beforeRun s.erec sl.h.node) (by intro x b _ hc; cases hc)
        split
        · refine Doomed.complete (h1.flags (f := _) ?_ _) _ hl fun _ => rfl
          exact le_setFlag _ _ _ h.failed
        · rename_i hdf
          have hne : ¬ HasEdge C.dag .requires sl.h.node n := by
            intro hc
            exact hdf (anyDepFailed_iff.2 ⟨n, hc, h.failed⟩)
          split
          · refine Doomed.complete (h1.flags (f := _) ?_ _) _ hl ?_
            · exact h.failed
            · exact fun hc => absurd hc hne
          · split
            · refine Doomed.collect (((h1.flags (f := _) ?_ _).emit ?_).emit ?_) _ hl hne
              · exact h.failed
              · intro x b hx hc; cases hc; exact hne hx
              · intro x b hx hc; cases hc
            · split
              · have h2 := (h1.flags (f := { s.flags with
                    started := setFlag s.flags.started sl.h.node }) h.failed
                  (s.used ++ C.resources sl.h.node)).emit (e := .launch sl.h.node)
                  (by intro x b hx hc; cases hc)
                refine ⟨h2.failed, h2.kept, ?_, ?_, h2.recs, h2.noBegin⟩
                · intro x hx he
                  rcases List.mem_cons.1 hx with h3 | h3
                  · rw [h3] at he; exact absurd he hne
                  · exact h.todo x (hl x h3) he
                · intro x hx
                  show setWorker s.worker sl.h.node .queued x = .idle
                  unfold setWorker
                  split
                  · rename_i he; rw [he] at hx; exact absurd hx hne
                  · exact h.idle x hx
              · refine ((h1.flags (f := _) ?_ _).setPhase _).tail hl
                exact h.failed
    · rename_i hlau
      have hla : sl.h.launched = true := by simpa using hlau
      have hne : ¬ HasEdge C.dag .requires sl.h.node n := by
        intro hc; rw [hsl hc] at hla; cases hla
      split
      · exact h.collect _ hl hne
      · refine ⟨h.failed, ?_, fun x hx => h.todo x (hl x hx), h.idle, h.recs, h.noBegin⟩
        intro x hx
        rcases List.mem_append.1 hx with h1 | h1
        · exact h.kept x h1
        · rw [List.mem_singleton.1 h1]; exact hsl

theorem Doomed.prologue {C : Cfg} {n : Node} {s : St} (h : Doomed C.dag n s) :
    Doomed C.dag n (prologue C s) := by
  have key : ∀ (tr : List Event) (f : Flags) (tp : List Node) (er : ExecRecord) (p : Phase),
      (∀ e ∈ tr, e ∈ s.trace ∨ e.noBegin) → f.failed = s.flags.failed → er.runs = [] →
      Doomed C.dag n
        { s with trace := tr, flags := f, toProcess := tp, erec := er, phase := p } := by
    intro tr f tp er p h1 h2 h3
    refine ⟨by show f.failed n = true; rw [h2]; exact h.failed, h.kept, h.todo, h.idle, ?_, ?_⟩
    · intro r hr
      have hr' : r ∈ er.runs := hr
      rw [h3] at hr'; cases hr'
    · intro x b hx hm
      rcases h1 _ hm with h4 | h4
      · exact h.noBegin x b hx h4
      · exact h4
  have k1 : ∀ e ∈ s.trace ++ Event.resumed :: C.dag.nodes.map Event.nodeEnque,
      e ∈ s.trace ∨ e.noBegin := by
    intro e he
    rcases List.mem_append.1 he with h1 | h1
    · exact .inl h1
    · rcases List.mem_cons.1 h1 with rfl | h2
      · exact .inr trivial
      · obtain ⟨x, _, rfl⟩ := List.mem_map.1 h2; exact .inr trivial
  have k2 : ∀ (tr evs : List Event), (∀ e ∈ tr, e ∈ s.trace ∨ e.noBegin) →
      (∀ e ∈ evs, e.noBegin) → ∀ e ∈ tr ++ evs, e ∈ s.trace ∨ e.noBegin := by
    intro tr evs h1 h2 e he
    rcases List.mem_append.1 he with h3 | h3
    · exact h1 e h3
    · exact .inr (h2 e h3)
  have k3 : ∀ reps : List (List Node), ∀ e ∈ reps.map Event.detectedCycle, e.noBegin := by
    intro reps e he
    obtain ⟨x, _, rfl⟩ := List.mem_map.1 he; trivial
  unfold Joque.prologue
  dsimp only
  have hp := propagate_noBegin C.dag C.hasJob C.ask (toProcessOf C.dag) s.flags.inval
  split
  · exact key _ s.flags _ _ _ k1 rfl rfl
  · exact key _ s.flags _ _ _ k1 rfl rfl
  · exact key _ s.flags _ _ _ (k2 _ _ k1 (k3 _)) rfl rfl
  · generalize propagateInvalidation C.dag C.hasJob C.ask (toProcessOf C.dag) s.flags.inval = a at hp
    cases a with
    | outOfFuel => exact key _ s.flags _ _ _ (k2 _ _ k1 (k3 _)) rfl rfl
    | assertFailed => exact key _ s.flags _ _ _ (k2 _ _ k1 (k3 _)) rfl rfl
    | ub ev => exact key _ s.flags _ _ _ (k2 _ _ (k2 _ _ k1 (k3 _)) hp) rfl rfl
    | threw w ev => exact key _ s.flags _ _ _ (k2 _ _ (k2 _ _ k1 (k3 _)) hp) rfl rfl
    | ok p =>
      exact key _ { s.flags with inval := p.inval } _ _ _ (k2 _ _ (k2 _ _ k1 (k3 _)) hp) rfl rfl

theorem Doomed.ctl {C : Cfg} {n : Node} {s : St} (h : Doomed C.dag n s) (ok : Bool) :
    Doomed C.dag n (ctlStep C s ok) := by
  unfold ctlStep
  cases s.phase with
  | created => exact h.prologue
  | loopTop =>
    dsimp only
    split
    · exact h.setPhase _
    · exact (h.emit (by intro x b _ hc; cases hc)).setPhase _
  | clean d => exact h.clean ok d
  | pick =>
    dsimp only
    unfold pickStep
    split
    · exact h.setPhase _
    · split
      · exact h.setPhase _
      · refine ⟨h.failed, h.kept, ?_, h.idle, h.recs, h.noBegin⟩
        intro sl hsl he
        rcases List.mem_append.1 hsl with h1 | h1
        · exact h.todo sl h1 he
        · rw [List.mem_singleton.1 h1]
      · split <;> exact h.setPhase _
  | susp d => exact (h.emit (by intro x b _ hc; cases hc)).setPhase _
  | drainTop =>
    dsimp only
    split
    · exact (h.emit (by intro x b _ hc; cases hc)).setPhase _
    · exact h.setPhase _
  | finished => exact h.setPhase _
  | unwinding e =>
    dsimp only
    split
    · exact h.setPhase _
    · exact h
  | destroying =>
    dsimp only
    split
    · exact h.setPhase _
    · exact h
  | threw e => exact h.setPhase _
  | destroyed => exact h
  | ub => exact h
  | abort => exact h
  | outOfFuel => exact h

theorem Doomed.step {C : Cfg} {n : Node} {s : St} (h : Doomed C.dag n s) (m : Move) :
    Doomed C.dag n (step C s m) := by
  cases m with
  | ctl => exact h.ctl true
  | ctlFail => exact h.ctl false
  | fault f =>
    have h' := h.ctl (C := C) true
    show Doomed C.dag n (faultStep C s f)
    rcases fault_cases C s f with h1 | ⟨_, _, _, _, _, _, _, h1⟩ | ⟨pre, e, post, _, h2, _, _, h1⟩ |
      ⟨_, _, h1⟩ <;> rw [h1]
    · exact h'
    · exact h'.setPhase _
    · refine ⟨h.failed, h.kept, h.todo, h.idle, h.recs, ?_⟩
      intro x b hx hm
      refine h'.noBegin x b hx ?_
      rw [h2, List.append_cons]
      exact List.mem_append.2 ((List.mem_append.1 hm).imp_right (List.mem_append_left _))
    · exact h.setPhase _
  | begin x =>
    unfold Joque.step
    dsimp only
    split
    · exact h
    · split
      · rename_i hq
        have hne : ¬ HasEdge C.dag .requires x n := by
          intro hc; rw [h.idle x hc] at hq; cases hq
        have h1 := h.emit (e := .jobBegin x false) (by intro y b hy hc; cases hc; exact hne hy)
        refine ⟨h1.failed, h1.kept, h1.todo, ?_, h1.recs, h1.noBegin⟩
        intro y hy
        show setWorker s.worker x .running y = .idle
        unfold setWorker
        split
        · rename_i he; rw [he] at hy; exact absurd hy hne
        · exact h.idle y hy
      · exact h
  | finish x =>
    unfold Joque.step
    dsimp only
    split
    · exact h
    · split
      · rename_i hq
        have hne : ¬ HasEdge C.dag .requires x n := by
          intro hc; rw [h.idle x hc] at hq; cases hq
        have h1 := h.emit (e := .jobEnd x) (by intro y b hy hc; cases hc)
        refine ⟨h1.failed, h1.kept, h1.todo, ?_, h1.recs, h1.noBegin⟩
        intro y hy
        show setWorker s.worker x .finished y = .idle
        unfold setWorker
        split
        · rename_i he; rw [he] at hy; exact absurd hy hne
        · exact h.idle y hy
      · exact h
  | destroy =>
    show Doomed C.dag n (destroyStep s)
    unfold destroyStep
    split
    all_goals first
      | exact h
      | exact h.setPhase _

end Joque
