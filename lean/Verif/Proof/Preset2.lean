import Verif.Proof.Preset

/-! # The `invalidated` marks given with a dag are irrelevant -/

namespace Joque

inductive QSame (D : Node → Prop) : QueryOut → QueryOut → Prop where
  | ok (tp : List Node) (s s' : PSt) (he : s.events = s'.events)
      (ha : ∀ n, D n → s.inval n = s'.inval n) : QSame D (.ok tp s) (.ok tp s')
  | ub (ev : List Event) : QSame D (.ub ev) (.ub ev)
  | threw (w : Str) (ev : List Event) : QSame D (.threw w ev) (.threw w ev)

theorem queryLoop_same (hasJob : Node → Bool) (ask : Node → InvalOut) :
    ∀ (ns tp : List Node) (s s' : PSt) (D : Node → Prop), s.events = s'.events →
      (∀ n, D n → s.inval n = s'.inval n) →
      QSame (fun n => D n ∨ n ∈ ns) (queryLoop hasJob ask ns tp s) (queryLoop hasJob ask ns tp s') := by
  intro ns
  induction ns with
  | nil =>
    intro tp s s' D he ha
    exact .ok tp s s' he fun n hn => ha n (hn.resolve_right (by simp))
  | cons m ns ih =>
    intro tp s s' D he ha
    unfold queryLoop
    split
    · split
      · rw [he]; exact .threw _ _
      · rename_i r hr
        have step : ∀ (v : Inval) (tp' : List Node), QSame (fun n => D n ∨ n ∈ m :: ns)
            (queryLoop hasJob ask ns tp' ⟨setInval s.inval m v, s.events ++ [.jobInval m v r.log]⟩)
            (queryLoop hasJob ask ns tp'
              ⟨setInval s'.inval m v, s'.events ++ [.jobInval m v r.log]⟩) := by
          intro v tp'
          have := ih tp' ⟨setInval s.inval m v, s.events ++ [.jobInval m v r.log]⟩
            ⟨setInval s'.inval m v, s'.events ++ [.jobInval m v r.log]⟩ (fun n => D n ∨ n = m)
            (by show s.events ++ _ = s'.events ++ _; rw [he]) (by
              intro n hn
              show setInval s.inval m v n = setInval s'.inval m v n
              unfold setInval
              split
              · rfl
              · rename_i hne; exact ha n (hn.resolve_right hne))
          have hD : (fun n => (D n ∨ n = m) ∨ n ∈ ns) = (fun n => D n ∨ n ∈ m :: ns) := by
            funext n; simp only [List.mem_cons, or_assoc]
          rw [hD] at this; exact this
        split
        · exact step _ _
        · exact step _ _
    · rw [he]; exact .ub _

theorem propEdges_same (seen : List Node) :
    ∀ (es : List Edge) (tp : List Node) (s s' : PSt) (D : Node → Prop), s.events = s'.events →
      (∀ n, D n → s.inval n = s'.inval n) → (∀ n ∈ tp, D n) →
      (propEdges seen es tp s).1 = (propEdges seen es tp s').1 ∧
      (propEdges seen es tp s).2.events = (propEdges seen es tp s').2.events ∧
      ∃ D' : Node → Prop, (∀ n, D n → D' n) ∧ (∀ n ∈ (propEdges seen es tp s).1, D' n) ∧
        ∀ n, D' n → (propEdges seen es tp s).2.inval n = (propEdges seen es tp s').2.inval n := by
  intro es
  induction es with
  | nil => intro tp s s' D he ha ht; exact ⟨rfl, he, D, fun _ h => h, ht, ha⟩
  | cons e es ih =>
    intro tp s s' D he ha ht
    unfold propEdges
    split
    · exact ih tp s s' D he ha ht
    · obtain ⟨h1, h2, D', h3, h4, h5⟩ := ih (sinsert e.src tp)
        ⟨setInval s.inval e.src .invalid, s.events ++ [.depInval e.src e.tgt]⟩
        ⟨setInval s'.inval e.src .invalid, s'.events ++ [.depInval e.src e.tgt]⟩
        (fun n => D n ∨ n = e.src)
        (by show s.events ++ _ = s'.events ++ _; rw [he])
        (by
          intro n hn
          show setInval s.inval e.src .invalid n = setInval s'.inval e.src .invalid n
          unfold setInval
          split
          · rfl
          · rename_i hne; exact ha n (hn.resolve_right hne))
        (by
          intro n hn
          rcases mem_sinsert.1 hn with h | h
          · exact .inr h
          · exact .inl (ht n h))
      exact ⟨h1, h2, D', fun n hn => h3 n (.inl hn), h4, h5⟩

inductive PSame (D : Node → Prop) : PropOut → PropOut → Prop where
  | ok (s s' : PSt) (he : s.events = s'.events) (ha : ∀ n, D n → s.inval n = s'.inval n) :
      PSame D (.ok s) (.ok s')
  | same (p : PropOut) (h : ∀ s, p ≠ .ok s) : PSame D p p

theorem propLoop_same (g : Dag) :
    ∀ (fuel : Nat) (tp seen : List Node) (s s' : PSt) (D : Node → Prop), s.events = s'.events →
      (∀ n, D n → s.inval n = s'.inval n) → (∀ n ∈ tp, D n) →
      PSame D (propLoop g fuel tp seen s) (propLoop g fuel tp seen s') := by
  intro fuel
  induction fuel with
  | zero => intro tp seen s s' D _ _ _; exact .same _ (by intro s h; cases h)
  | succ fuel ih =>
    intro tp seen s s' D he ha ht
    cases tp with
    | nil => exact .ok s s' he ha
    | cons p tp =>
      unfold propLoop
      dsimp only
      rw [ha p (ht p (List.mem_cons_self ..))]
      split
      · exact .same _ (by intro s h; cases h)
      · obtain ⟨h1, h2, D', h3, h4, h5⟩ := propEdges_same (p :: seen)
          (filterEdges .invalidatedBy (g.inEdges p)) tp s s' D he ha
          (fun n hn => ht n (List.mem_cons_of_mem _ hn))
        rw [← h1]
        have := ih _ (p :: seen) _ _ D' h2 h5 h4
        revert this
        generalize propLoop g fuel _ _ _ = a
        generalize propLoop g fuel _ _ _ = b
        intro this
        cases this with
        | ok t t' h6 h7 => exact .ok t t' h6 fun n hn => h7 n (h3 n hn)
        | same _ h => exact .same _ h

theorem propagate_same (g : Dag) (hasJob : Node → Bool) (ask : Node → InvalOut) (tp : List Node)
    (i i' : Node → Inval) :
    PSame (fun n => n ∈ tp) (propagateInvalidation g hasJob ask tp i)
      (propagateInvalidation g hasJob ask tp i') := by
  have hq := queryLoop_same hasJob ask tp [] ⟨i, []⟩ ⟨i', []⟩ (fun _ => False) rfl (by simp)
  have hsub : ∀ (ns tp0 tp1 : List Node) (s s1 : PSt),
      queryLoop hasJob ask ns tp0 s = .ok tp1 s1 → ∀ n ∈ tp1, n ∈ tp0 ∨ n ∈ ns := by
    intro ns
    induction ns with
    | nil =>
      intro tp0 tp1 s s1 h n hn
      unfold queryLoop at h
      simp only [QueryOut.ok.injEq] at h
      rw [← h.1] at hn; exact .inl hn
    | cons m ns ih =>
      intro tp0 tp1 s s1 h n hn
      unfold queryLoop at h
      split at h
      · split at h
        · cases h
        · split at h
          · rcases ih _ _ _ _ h n hn with h1 | h1
            · rcases mem_sinsert.1 h1 with h2 | h2
              · exact .inr (by rw [h2]; exact List.mem_cons_self ..)
              · exact .inl h2
            · exact .inr (List.mem_cons_of_mem _ h1)
          · rcases ih _ _ _ _ h n hn with h1 | h1
            · exact .inl h1
            · exact .inr (List.mem_cons_of_mem _ h1)
      · cases h
  unfold propagateInvalidation
  generalize ha : queryLoop hasJob ask tp [] ⟨i, []⟩ = a at hq
  generalize queryLoop hasJob ask tp [] ⟨i', []⟩ = b at hq
  cases hq with
  | ok t s s' he hag =>
    refine propLoop_same g _ t t s s' _ he (fun n hn => hag n (.inr hn)) ?_
    intro n hn
    exact (hsub _ _ _ _ _ ha n hn).resolve_left (by simp)
  | ub ev => exact .same _ (by intro s h; cases h)
  | threw w ev => exact .same _ (by intro s h; cases h)

/-- `s` with other `invalidated` marks -/
def St.setI (s : St) (i : Node → Inval) : St := { s with flags := { s.flags with inval := i } }

theorem prologue_same (C : Cfg) (s : St) (i : Node → Inval) :
    ∃ i', prologue C (s.setI i) = (prologue C s).setI i' ∧
      ((prologue C s).phase.active = true →
        ∀ n ∈ C.dag.nodes, i' n = (prologue C s).flags.inval n) := by
  unfold prologue
  dsimp only
  have hp := propagate_same C.dag C.hasJob C.ask (toProcessOf C.dag)
    s.flags.inval i
  generalize hasCycle C.dag (toProcessOf C.dag) = hc
  cases hc with
  | outOfFuel => exact ⟨i, rfl, fun h => by cases h⟩
  | assertFailed => exact ⟨i, rfl, fun h => by cases h⟩
  | result b reps =>
    cases b with
    | true => exact ⟨i, rfl, fun h => by cases h⟩
    | false =>
      dsimp only
      have e : (s.setI i).flags.inval = i := rfl
      rw [e]
      generalize propagateInvalidation C.dag C.hasJob C.ask (toProcessOf C.dag) s.flags.inval = a at hp
      generalize propagateInvalidation C.dag C.hasJob C.ask (toProcessOf C.dag) i = b at hp
      cases hp with
      | ok t t' he ha =>
        refine ⟨t'.inval, ?_, fun _ n hn => ?_⟩
        · dsimp only; rw [he]; rfl
        · exact (ha n (((toProcessOf_spec C.dag).2 n).2 hn)).symm
      | same p h =>
        cases a with
        | ok s => exact absurd rfl (h s)
        | ub ev => exact ⟨i, rfl, fun h => by cases h⟩
        | threw w ev => exact ⟨i, rfl, fun h => by cases h⟩
        | assertFailed => exact ⟨i, rfl, fun h => by cases h⟩
        | outOfFuel => exact ⟨i, rfl, fun h => by cases h⟩

theorem collect_setI (C : Cfg) (s : St) (i : Node → Inval) (ref : Node) (h : Handle)
    (rest : List Slot) : collect C (s.setI i) ref h rest = (collect C s ref h rest).setI i := by
  unfold collect
  dsimp only
  split
  · rfl
  · split <;> rfl

theorem clean_setI (C : Cfg) (s : St) (i : Node → Inval) (ok d : Bool)
    (hi : ∀ sl ∈ s.todo, i sl.h.node = s.flags.inval sl.h.node) :
    cleanStep C (s.setI i) ok d = (cleanStep C s ok d).setI i := by
  unfold cleanStep
  have e : (s.setI i).todo = s.todo := rfl
  rw [e]
  cases ht : s.todo with
  | nil => rfl
  | cons sl rest =>
    have hi' := hi sl (by rw [ht]; exact List.mem_cons_self ..)
    dsimp only
    split
    · unfold startRun
      dsimp only
      have e2 : (s.setI i).flags.inval sl.h.node = s.flags.inval sl.h.node := hi'
      have e3 : ∀ ev, ((s.setI i).emit ev).flags.inval sl.h.node = (s.emit ev).flags.inval sl.h.node :=
        fun _ => hi'
      have e4 : ∀ (ev : Event) es, anyDepFailed ((s.setI i).emit ev).flags es =
        anyDepFailed (s.emit ev).flags es := fun _ _ => rfl
      rw [e2]
      split
      · rfl
      · have e5 : (s.setI i).erec = s.erec := rfl
        rw [e4, e3, e5]
        split
        · rfl
        · split
          · rfl
          · split
            · exact collect_setI C (((
                { s.emit (.beforeRun s.erec sl.h.node) with
                  flags := { s.flags with started := setFlag s.flags.started sl.h.node }
                  used := s.used ++ C.resources sl.h.node } : St).emit
                (.jobBegin sl.h.node true)).emit (.jobEnd sl.h.node)) i _ _ _
            · split <;> rfl
    · have e6 : (s.setI i).worker = s.worker := rfl
      rw [e6]
      split
      · exact collect_setI C s i _ _ _
      · rfl

/-- same execution but for the marks -/
structure SameBut (C : Cfg) (s s' : St) : Prop where
  eq : ∃ i, s' = s.setI i
  agree : s.phase.active = true → ∀ n ∈ C.dag.nodes, s'.flags.inval n = s.flags.inval n

theorem findCand_setI (g : Dag) (res : Node → List Res) (f : Flags) (i : Node → Inval)
    (used : List Res) : ∀ (fuel : Nat) (n : Node) (seen : List Node),
    findCand g res { f with inval := i } used fuel n seen = findCand g res f used fuel n seen := by
  intro fuel
  induction fuel with
  | zero => intro n seen; rfl
  | succ fuel ih =>
    intro n seen
    have : findCand g res { f with inval := i } used fuel = findCand g res f used fuel := by
      funext n seen; exact ih n seen
    unfold findCand
    rw [this]
    rfl

theorem findCandTop_setI (g : Dag) (res : Node → List Res) (f : Flags) (i : Node → Inval)
    (used : List Res) (fuel : Nat) : ∀ (ns seen : List Node),
    findCandTop g res { f with inval := i } used fuel ns seen =
      findCandTop g res f used fuel ns seen := by
  intro ns
  induction ns with
  | nil => intro seen; rfl
  | cons n ns ih =>
    intro seen
    unfold findCandTop
    rw [findCand_setI]
    split
    · rfl
    · rfl
    · exact ih _

theorem pick_setI (C : Cfg) (s : St) (i : Node → Inval) :
    pickStep C (s.setI i) = (pickStep C s).setI i := by
  unfold pickStep
  have e : findCandidate C.dag C.resources (s.setI i).flags (s.setI i).used (s.setI i).toProcess =
      findCandidate C.dag C.resources s.flags s.used s.toProcess :=
    findCandTop_setI ..
  have e1 : (s.setI i).todo = s.todo := rfl
  rw [e, e1]
  split
  · rfl
  · split
    · rfl
    · rfl
    · split <;> rfl

theorem step_inval_const (C : Cfg) (s : St) (ok d : Bool) :
    (cleanStep C s ok d).flags.inval = s.flags.inval := by
  have key : ∀ (s0 : St) ref h rest, (collect C s0 ref h rest).flags.inval = s0.flags.inval := by
    intro s0 ref h rest
    unfold collect
    dsimp only
    split
    · rfl
    · split <;> rfl
  unfold cleanStep
  split
  · rfl
  · split
    · unfold startRun
      dsimp only
      split
      · rfl
      · split
        · rfl
        · split
          · rfl
          · split
            · rw [key]; rfl
            · split <;> rfl
    · split
      · exact key ..
      · rfl

theorem ctl_same {C : Cfg} {s s' : St} (h : SameBut C s s')
    (hn : ∀ sl ∈ s.todo, sl.h.node ∈ C.dag.nodes) (ok : Bool) :
    SameBut C (ctlStep C s ok) (ctlStep C s' ok) := by
  obtain ⟨⟨i, rfl⟩, ha⟩ := h
  unfold ctlStep
  have e : (s.setI i).phase = s.phase := rfl
  rw [e]
  cases hp : s.phase with
  | created =>
    obtain ⟨i', h1, h2⟩ := prologue_same C s i
    dsimp only
    rw [h1]
    exact ⟨⟨i', rfl⟩, h2⟩
  | loopTop =>
    have ha' := ha (by rw [hp]; rfl)
    dsimp only
    have e1 : (s.setI i).toProcess = s.toProcess := rfl
    rw [e1]
    split
    · exact ⟨⟨i, rfl⟩, fun _ => ha'⟩
    · exact ⟨⟨i, rfl⟩, fun _ => ha'⟩
  | clean d =>
    have ha' := ha (by rw [hp]; rfl)
    dsimp only
    rw [clean_setI C s i ok d fun sl hsl => ha' _ (hn sl hsl)]
    refine ⟨⟨i, rfl⟩, fun _ n hm => ?_⟩
    rw [step_inval_const]
    exact ha' n hm
  | pick =>
    have ha' := ha (by rw [hp]; rfl)
    dsimp only
    rw [pick_setI]
    refine ⟨⟨i, rfl⟩, fun _ n hm => ?_⟩
    have : (pickStep C s).flags.inval = s.flags.inval := by
      unfold pickStep
      split
      · rfl
      · split
        · rfl
        · rfl
        · split <;> rfl
    rw [this]
    exact ha' n hm
  | susp d => exact ⟨⟨i, rfl⟩, fun _ => ha (by rw [hp]; rfl)⟩
  | drainTop =>
    have ha' := ha (by rw [hp]; rfl)
    dsimp only
    have e1 : (s.setI i).todo = s.todo := rfl
    rw [e1]
    split
    · exact ⟨⟨i, rfl⟩, fun _ => ha'⟩
    · exact ⟨⟨i, rfl⟩, fun _ => ha'⟩
  | finished => exact ⟨⟨i, rfl⟩, fun hc => (by cases hc)⟩
  | unwinding e =>
    dsimp only
    have e1 : joinable (s.setI i) = joinable s := rfl
    rw [e1]
    split
    · exact ⟨⟨i, rfl⟩, fun hc => (by cases hc)⟩
    · exact ⟨⟨i, rfl⟩, ha⟩
  | destroying =>
    dsimp only
    have e1 : joinable (s.setI i) = joinable s := rfl
    rw [e1]
    split
    · exact ⟨⟨i, rfl⟩, fun hc => (by cases hc)⟩
    · exact ⟨⟨i, rfl⟩, ha⟩
  | threw e => exact ⟨⟨i, rfl⟩, fun hc => (by cases hc)⟩
  | destroyed => exact ⟨⟨i, rfl⟩, ha⟩
  | ub => exact ⟨⟨i, rfl⟩, ha⟩
  | abort => exact ⟨⟨i, rfl⟩, ha⟩
  | outOfFuel => exact ⟨⟨i, rfl⟩, ha⟩

theorem step_same {C : Cfg} {s s' : St} (h : SameBut C s s')
    (hn : ∀ sl ∈ s.todo, sl.h.node ∈ C.dag.nodes) (m : Move) :
    SameBut C (step C s m) (step C s' m) := by
  cases m with
  | ctl => exact ctl_same h hn true
  | ctlFail => exact ctl_same h hn false
  | fault f =>
    have h' := ctl_same h hn true
    show SameBut C (faultStep C s f) (faultStep C s' f)
    obtain ⟨⟨j, hj⟩, ha'⟩ := h'
    obtain ⟨⟨i, rfl⟩, ha⟩ := h
    have key : ∀ k, SameBut C (throwStep C s f k) (throwStep C (s.setI i) f k) := by
      intro k
      unfold throwStep
      dsimp only
      have e1 : (s.setI i).trace = s.trace := rfl
      have e2 : (ctlStep C (s.setI i) true).trace = (ctlStep C s true).trace := by rw [hj]; rfl
      rw [e1, e2]
      split
      · split
        · split
          · rw [hj]; exact ⟨⟨j, rfl⟩, fun hc => (by cases hc)⟩
          · exact ⟨⟨i, rfl⟩, fun hc => (by cases hc)⟩
        · exact ⟨⟨j, hj⟩, ha'⟩
      · exact ⟨⟨j, hj⟩, ha'⟩
    cases f with
    | visitor k => exact key k
    | memory k => exact key k
    | memoryBefore =>
      unfold faultStep
      have e1 : (s.setI i).phase = s.phase := rfl
      dsimp only
      rw [e1]
      split
      all_goals first
        | exact ⟨⟨i, rfl⟩, fun hc => (by cases hc)⟩
        | exact ⟨⟨j, hj⟩, ha'⟩
  | begin x =>
    obtain ⟨⟨i, rfl⟩, ha⟩ := h
    unfold step
    dsimp only
    have e1 : (s.setI i).phase = s.phase := rfl
    have e2 : (s.setI i).worker = s.worker := rfl
    rw [e1, e2]
    split
    · exact ⟨⟨i, rfl⟩, ha⟩
    · split
      · exact ⟨⟨i, rfl⟩, ha⟩
      · exact ⟨⟨i, rfl⟩, ha⟩
  | finish x =>
    obtain ⟨⟨i, rfl⟩, ha⟩ := h
    unfold step
    dsimp only
    have e1 : (s.setI i).phase = s.phase := rfl
    have e2 : (s.setI i).worker = s.worker := rfl
    rw [e1, e2]
    split
    · exact ⟨⟨i, rfl⟩, ha⟩
    · split
      · exact ⟨⟨i, rfl⟩, ha⟩
      · exact ⟨⟨i, rfl⟩, ha⟩
  | destroy =>
    obtain ⟨⟨i, rfl⟩, ha⟩ := h
    show SameBut C (destroyStep s) (destroyStep (s.setI i))
    unfold destroyStep
    have e1 : (s.setI i).phase = s.phase := rfl
    rw [e1]
    split
    all_goals first
      | exact ⟨⟨i, rfl⟩, ha⟩
      | exact ⟨⟨i, rfl⟩, fun hc => (by cases hc)⟩

theorem same_exec {C : Cfg} (hwf : C.dag.WF) (i : Node → Inval) (ms : List Move) :
    SameBut C (exec C ms) (execFrom C { Flags.fresh with inval := i } ms) := by
  induction ms using List.reverseRecOn with
  | nil => exact ⟨⟨i, rfl⟩, fun hc => (by cases hc)⟩
  | append_singleton ms m ih =>
    unfold exec execFrom at *
    rw [List.foldl_append, List.foldl_append]
    refine step_same ih ?_ m
    intro sl hsl
    have hi := inv_exec hwf ms
    refine hi.inNodes _ ?_
    have : sl.h ∈ handles (exec C ms) := by
      unfold handles
      exact List.mem_append_right _ (List.mem_map_of_mem hsl)
    unfold allNodes
    exact List.mem_append_left _ (List.mem_append_left _ (List.mem_map_of_mem this))

end Joque
