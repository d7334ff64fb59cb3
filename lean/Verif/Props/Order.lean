import Verif.Proof.Order
import Verif.Props.Cost
import Verif.Props.Prompt
import Verif.Proof.Pace
import Verif.Props.Exec6

/-!
# Which task is started next

Statement C93.
-/

namespace Joque

variable {C : Cfg}

/-- `n` is the first element of `L` with `P` -/
def FirstIn (L : List Node) (P : Node → Prop) (n : Node) : Prop :=
  ∃ a b, L = a ++ n :: b ∧ P n ∧ ∀ m ∈ a, ¬ P m

/-- `roots` are the nodes of the dag, by address -/
def ByAddress (g : Dag) (roots : List Node) : Prop := roots.Perm g.nodes ∧ roots.Pairwise (· < ·)

theorem byAddress_eq {g : Dag} {roots : List Node} (h : ByAddress g roots) : toProcessOf g = roots := by
  have hs := toProcessOf_spec g
  refine List.Perm.eq_of_pairwise (le := (· < ·)) (fun a b _ _ h1 h2 => absurd h1 (Nat.lt_asymm h2)) hs.1 h.2 ?_
  refine (List.perm_ext_iff_of_nodup (hs.1.imp Nat.ne_of_lt) (h.2.imp Nat.ne_of_lt)).2 fun a => ?_
  rw [hs.2 a, h.1.mem_iff]

/-- **C93**, the order: every task once, after everything it is ordered after. -/
theorem C93_order (g : Dag) (hwf : g.WF) (hac : ¬ Cyclic g) (roots : List Node)
    (hr : ByAddress g roots) :
    (startOrder g roots).Perm g.nodes ∧
    ∀ a n b, startOrder g roots = a ++ n :: b → ∀ m, AfterEdge g n m → m ∈ a := by
  obtain ⟨h1, h2⟩ := startOrder_dfs hwf hac roots fun n hn => hr.1.mem_iff.1 hn
  refine ⟨(List.perm_ext_iff_of_nodup h1.nodup hwf.nodup).2 fun a => ⟨h1.nodes a, fun ha => ?_⟩, h1.topo⟩
  exact h2 a (hr.1.mem_iff.2 ha)

/-- **C93**, a search: whenever the engine looks for work, the task it chooses is the first in the order
that can start. -/
theorem C93_search (C : Cfg) (hwf : C.dag.WF) (roots : List Node) (hr : ByAddress C.dag roots)
    (ms : List Move) (hp : (exec C ms).phase = .pick) (n : Node)
    (hn : findCandidate C.dag C.resources (exec C ms).flags (exec C ms).used (exec C ms).toProcess =
      some (some n)) :
    FirstIn (startOrder C.dag roots) (CanStart C (exec C ms).trace) n := by
  obtain ⟨hI, hT⟩ := both_exec hwf ms
  generalize exec C ms = s at *
  have hact : s.phase.active = true := by rw [hp]; rfl
  have hbw : ∀ n, s.flags.begun n = !s.flags.waiting n := by
    intro n; unfold Flags.begun Flags.waiting
    cases s.flags.started n <;> cases s.flags.done n <;> rfl
  have hsrc : ∀ n m, AfterEdge C.dag n m → n ∈ C.dag.nodes := by
    intro n m h
    obtain ⟨e, he, rfl⟩ := exists_of_hasEdge h
    have := mem_filterEdges_out.1 he
    have h1 := (hwf.closed e this.1).1
    have h2 : e.src = n := by
      have := this.2
      simp_all
    rwa [h2] at h1
  have hcl : ∀ n m, s.flags.begun n = true → AfterEdge C.dag n m → s.flags.begun m = true := by
    intro n m hb hnm
    have hnn := hsrc n m hnm
    have htp : n ∉ s.toProcess := by
      intro h
      have := (waiting_iff hI hp hnn).2 h
      rw [hbw, this] at hb; cases hb
    have hd : s.flags.done m = true := by
      have := hI.part hact n hnn
      unfold allNodes at this
      simp only [List.mem_append] at this
      rcases this with (h | h) | h
      · obtain ⟨x, hx, rfl⟩ := List.mem_map.1 h
        exact hI.preds x hx m hnm
      · obtain ⟨r, hr, rfl⟩ := List.mem_map.1 h
        exact (hI.recs r hr).preds m hnm
      · exact absurd h htp
    unfold Flags.begun; rw [hd]; simp
  have htp : s.toProcess = roots.filter fun n => !s.flags.begun n := by
    have hs : (roots.filter fun n => !s.flags.begun n).Pairwise (· < ·) := hr.2.filter _
    refine List.Perm.eq_of_pairwise (le := (· < ·)) (fun a b _ _ h1 h2 => absurd h1 (Nat.lt_asymm h2))
      hI.tpSorted hs ?_
    refine (List.perm_ext_iff_of_nodup (hI.tpSorted.imp Nat.ne_of_lt) (hs.imp Nat.ne_of_lt)).2 fun a => ?_
    rw [List.mem_filter, hr.1.mem_iff, hbw, Bool.not_not]
    constructor
    · intro h; have := hI.tp_nodes a h; exact ⟨this, (waiting_iff hI hp this).2 h⟩
    · rintro ⟨h1, h2⟩; exact (waiting_iff hI hp h1).1 h2
  have hE : Eligible C.dag C.resources s.flags s.used n := by
    obtain ⟨r, hr1, hr2, _⟩ := findCandidate_spec (res := C.resources) (f := s.flags)
      (used := s.used) hwf hI.tp_nodes
    rw [hn] at hr1
    obtain rfl : some n = r := Option.some.inj hr1
    exact (hr2 n rfl).1
  unfold findCandidate at hn
  rw [htp] at hn
  obtain ⟨new, e, _, h2⟩ := candTop_sim (hI.acyc hact) hcl (C.dag.nodes.length + 1) roots [] []
    (by simp) (some n) hn
  obtain ⟨a, b, hab, hna⟩ := h2 n rfl
  have hL : startOrder C.dag roots = a ++ n :: b := by
    unfold startOrder; rw [e, hab]; simp
  refine ⟨a, b, hL, (canStart_iff hI hT hp).2 ⟨?_, hE⟩, ?_⟩
  · have hnn : n ∈ C.dag.nodes := by
      have := (C93_order C.dag hwf (hI.acyc hact) roots hr).1.mem_iff (a := n)
      exact this.1 (by rw [hL]; simp)
    exact (waiting_iff hI hp hnn).1 (by simp [Flags.waiting, hE.notStarted, hE.notDone])
  · intro m hm hcs
    exact hna m hm ((canStart_iff hI hT hp).1 hcs).2

/-- At some moment, `k` ticks before the end of the history `tr` and with no task started since, `n` was
chosen: some thread was free, and `n` was the first in `L` of the tasks that could start then. -/
def Chosen (C : Cfg) (L : List Node) (k : Nat) (tr : List Event) (n : Node) : Prop :=
  ∃ pre mid, tr = pre ++ mid ∧ ticks mid = k ∧ (∀ er m, Event.beforeRun er m ∉ mid) ∧
    (∀ m ∈ C.dag.nodes, life m pre = [] ∨
      ((Recorded pre m ∨ InFlight pre m) ∧ ∃ er, Event.beforeRun er m ∈ pre)) ∧
    (∀ l : List Node, l.Nodup → (∀ m ∈ l, InFlight pre m) → l.length < C.threadCount ∨ l = []) ∧
    FirstIn L (CanStart C pre) n

theorem Chosen.append {L : List Node} {k j : Nat} {tr evs : List Event} {n : Node}
    (h : Chosen C L k tr n) (hno : ∀ er m, Event.beforeRun er m ∉ evs) (hj : k + ticks evs = j) :
    Chosen C L j (tr ++ evs) n := by
  obtain ⟨pre, mid, rfl, h1, h2, h3⟩ := h
  refine ⟨pre, mid ++ evs, by simp, ?_, ?_, h3⟩
  · rw [ticks_append, h1]; exact hj
  · intro er m hm
    rcases List.mem_append.1 hm with hm | hm
    · exact h2 er m hm
    · exact hno er m hm

def Phase.suspended : Phase → Bool
  | .susp _ => true
  | _ => false

structure Prio (C : Cfg) (L : List Node) (s : St) : Prop where
  past : Always (fun pre e => ∀ er n, e = .beforeRun er n → Chosen C L 1 pre n) s.trace
  pend : s.phase.active = true → ∀ sl ∈ s.todo, sl.h.launched = false →
    Chosen C L (if s.phase.suspended then 0 else 1) s.trace sl.h.node

theorem clean_todo {s : St} {ok d : Bool} {sl : Slot} {rest : List Slot}
    (ht : s.todo = sl :: rest) (ha : (cleanStep C s ok d).phase.active = true) :
    ∀ x ∈ (cleanStep C s ok d).todo, x ∈ rest ∨ x.h.launched = true := by
  have hcoll : ∀ (s : St) ref h, (collect C s ref h rest).phase.active = true →
      (collect C s ref h rest).todo = rest := by
    intro s ref h ha
    unfold collect at ha ⊢
    dsimp only at ha ⊢
    split
    · rename_i hn; rw [hn] at ha; cases ha
    · rfl
  intro x hx
  unfold cleanStep at hx ha
  rw [ht] at hx ha
  dsimp only at hx ha
  split at hx
  · rename_i hl
    rw [if_pos hl] at ha
    unfold startRun at hx ha
    dsimp only at hx ha
    split at hx
    · rename_i hi; rw [if_pos hi] at ha; cases ha
    · rename_i hi; rw [if_neg hi] at ha
      split at hx
      · exact .inl hx
      · rename_i h1; rw [if_neg h1] at ha
        split at hx
        · exact .inl hx
        · rename_i h2; rw [if_neg h2] at ha
          split at hx
          · rename_i h3; rw [if_pos h3] at ha
            rw [hcoll _ _ _ ha] at hx; exact .inl hx
          · rename_i h3; rw [if_neg h3] at ha
            split at hx
            · rcases List.mem_cons.1 hx with rfl | hx
              · exact .inr rfl
              · exact .inl hx
            · exact .inl hx
  · rename_i hl
    rw [if_neg hl] at ha
    split at hx
    · rename_i hw
      rw [if_pos hw] at ha
      rw [hcoll _ _ _ ha] at hx; exact .inl hx
    · exact .inl hx

/-- tasks that were started are recorded or in flight when the engine looks for work -/
theorem pick_settled {s : St} (hI : Inv C s) (hT : TInv C s) (hp : s.phase = .pick) :
    ∀ m ∈ C.dag.nodes, life m s.trace = [] ∨
      ((Recorded s.trace m ∨ InFlight s.trace m) ∧ ∃ er, Event.beforeRun er m ∈ s.trace) := by
  have hact : s.phase.active = true := by rw [hp]; rfl
  have hk := (hI.notClean hact (by rw [hp]; rfl)).1
  have bef : ∀ m, Tag.before ∈ life m s.trace → ∃ er, Event.beforeRun er m ∈ s.trace := by
    intro m h
    obtain ⟨e, he, ht⟩ := List.mem_filterMap.1 h
    unfold tagOf at ht
    split at ht <;> (try split at ht) <;> simp at ht
    rename_i er m' hm; subst hm; exact ⟨er, he⟩
  intro m hm
  have := hI.part hact m hm
  unfold allNodes at this
  simp only [List.mem_append] at this
  rcases this with (h | h) | h
  · right
    obtain ⟨x, hx, rfl⟩ := List.mem_map.1 h
    have hl : x.launched = true := by
      simp only [handles, hk, List.nil_append] at hx
      obtain ⟨sl, hsl, rfl⟩ := List.mem_map.1 hx
      exact hI.pickLaunched hp sl hsl
    refine ⟨.inr ((inFlight_iff hI hT).2 ⟨x, hx, rfl, hl⟩), bef _ ?_⟩
    rw [hT.life_launched hact hx hl]
    cases s.worker x.node <;> simp [workerLife]
  · right
    obtain ⟨r, hr, rfl⟩ := List.mem_map.1 h
    refine ⟨.inl ⟨r, by rw [hT.recs]; exact hr, rfl⟩, bef _ ?_⟩
    rw [hT.lifeRec r hr]
    cases r.status <;> simp [recLife] <;> split <;> simp
  · exact .inl (hT.lifeTp m h)

theorem prio_ctl (hwf : C.dag.WF) {roots : List Node} (hr : ByAddress C.dag roots) (ms : List Move)
    (h : Prio C (startOrder C.dag roots) (exec C ms)) (ok : Bool) :
    Prio C (startOrder C.dag roots) (ctlStep C (exec C ms) ok) := by
  have hsearch := C93_search C hwf roots hr ms
  obtain ⟨hI, hT⟩ := both_exec hwf ms
  generalize startOrder C.dag roots = L at *
  generalize exec C ms = s at *
  constructor
  · obtain ⟨evs, h1, h2⟩ := ctl_events C s ok
    rw [h1]
    refine always_append h.past ?_
    intro pre e post heq er n he
    subst he
    have key : ∀ (d : Bool) (sl : Slot) (rest : List Slot) (tl : List Event), s.phase = .clean d →
        s.todo = sl :: rest → sl.h.launched = false → (∀ er m, Event.beforeRun er m ∉ tl) →
        evs = .beforeRun s.erec sl.h.node :: tl → Chosen C L 1 (s.trace ++ pre) n := by
      intro d sl rest tl hp ht hl hno hev
      have h0 := h.pend (by rw [hp]; rfl) sl (by rw [ht]; simp) hl
      rw [hp] at h0
      rw [hev] at heq
      cases pre with
      | nil =>
        simp only [List.nil_append, List.cons.injEq, Event.beforeRun.injEq] at heq
        rw [List.append_nil, ← heq.1.2]
        exact h0
      | cons x pre =>
        have := (List.cons.inj heq).2
        exact absurd (by rw [this]; simp) (hno er n)
    generalize (ctlStep C s ok).phase = p at h2
    cases h2 with
    | none => cases pre <;> cases heq
    | prologue _ hp he =>
      exfalso
      have hs := hI.createdInit hp
      subst hs
      obtain ⟨mid, g1, g2, _⟩ := prologue_tail hwf
      rw [g1] at he
      have hev : evs = .resumed :: mid := by rw [he]; rfl
      have : Event.beforeRun er n ∈ evs := by rw [heq]; simp
      rw [hev] at this
      rcases List.mem_cons.1 this with h | h
      · cases h
      · have := g2 _ h; simp [proEv] at this
    | tick =>
      exfalso
      have : Event.beforeRun er n ∈ [Event.onTick s.erec] := by rw [heq]; simp
      simp at this
    | resumed =>
      exfalso
      have : Event.beforeRun er n ∈ [Event.resumed] := by rw [heq]; simp
      simp at this
    | afterExecution =>
      exfalso
      have : Event.beforeRun er n ∈ [Event.afterExecution s.erec] := by rw [heq]; simp
      simp at this
    | notRun d sl rest r hp ht hl => exact key d sl rest _ hp ht hl (by simp) rfl
    | launch d sl rest hp ht hl => exact key d sl rest _ hp ht hl (by simp) rfl
    | asyncFailed d sl rest hp ht hl => exact key d sl rest _ hp ht hl (by simp) rfl
    | deferredUb d sl rest hp ht hl => exact key d sl rest _ hp ht hl (by simp) rfl
    | deferred d sl rest log r hp ht hl => exact key d sl rest _ hp ht hl (by simp) rfl
    | collect d sl rest log r hp ht hl =>
      exfalso
      have : Event.beforeRun er n ∈ [Event.runLog sl.h.node log, .afterRun s.erec r sl.ref] := by
        rw [heq]; simp
      simp at this
  · intro ha x hx hl
    cases hp : s.phase with
    | created =>
      exfalso
      have hs := hI.createdInit hp
      subst hs
      have : (ctlStep C St.init ok).todo = [] := by
        show (prologue C St.init).todo = []
        unfold prologue
        dsimp only
        split <;> try rfl
        split <;> rfl
      rw [this] at hx; cases hx
    | loopTop =>
      have h0 := h.pend (by rw [hp]; rfl) x
      rw [hp] at h0
      have he : ctlStep C s ok = if s.toProcess = [] then { s with phase := .drainTop }
          else { s.emit (.onTick s.erec) with phase := .clean false } := by unfold ctlStep; rw [hp]
      rw [he] at hx ⊢
      split at hx
      · rename_i hc
        rw [if_pos hc]
        exact h0 hx hl
      · rename_i hc
        rw [if_neg hc]
        exact (h0 hx hl).append (by simp) (by rfl)
    | clean d =>
      have he : ctlStep C s ok = cleanStep C s ok d := by unfold ctlStep; rw [hp]
      obtain ⟨evs, h1, h2⟩ := ctl_events C s ok
      rw [he] at hx ha h1 h2 ⊢
      cases ht : s.todo with
      | nil =>
        exfalso
        unfold cleanStep at hx
        rw [ht] at hx
        dsimp only at hx
        obtain ⟨i, hi, rfl⟩ := List.getElem_of_mem hx
        rw [List.getElem_zipWith] at hl
        have hi' : i < s.kept.length := by rw [List.length_zipWith] at hi; omega
        have := hI.keptLaunched _ (List.getElem_mem hi')
        dsimp only at hl
        rw [this] at hl; cases hl
      | cons sl rest =>
        rcases clean_todo ht ha x hx with hr | hr
        · have hsl : sl.h.launched = true := by
            refine hI.lastFresh sl ?_
            rw [ht]
            cases rest with
            | nil => cases hr
            | cons y ys => rw [List.dropLast_cons_cons]; simp
          have h0 := h.pend (by rw [hp]; rfl) x (by rw [ht]; exact List.mem_cons_of_mem _ hr) hl
          rw [hp] at h0
          rw [h1, (clean_shape hp ht ha).1]
          refine h0.append ?_ ?_
          · intro er m hm
            generalize (cleanStep C s ok d).phase = p at h2
            cases h2 <;> simp_all
          · have := clean_ticks (C := C) ok hp
            rw [h1, ticks_append] at this
            have : ticks evs = 0 := by omega
            rw [this]; rfl
        · rw [hr] at hl; cases hl
    | pick =>
      have he : ctlStep C s ok = pickStep C s := by unfold ctlStep; rw [hp]
      rw [he] at hx ha ⊢
      obtain ⟨p1, p2, _⟩ := pick_shape hwf hI hp ha
      rw [p1, p2]
      unfold pickStep at hx
      split at hx
      · have := hI.pickLaunched hp x hx
        rw [this] at hl; cases hl
      · rename_i hcap
        split at hx
        · have := hI.pickLaunched hp x hx
          rw [this] at hl; cases hl
        · rename_i n hn
          rcases List.mem_append.1 hx with hx | hx
          · have := hI.pickLaunched hp x hx
            rw [this] at hl; cases hl
          · rw [List.mem_singleton.1 hx]
            refine ⟨s.trace, [], by simp, rfl, by simp, pick_settled hI hT hp, ?_, hsearch hp n hn⟩
            intro l hl hin
            have hact : s.phase.active = true := by rw [hp]; rfl
            have hk := (hI.notClean hact (by rw [hp]; rfl)).1
            have hsub : l ⊆ (handles s).map Handle.node := by
              intro m hm
              obtain ⟨x, hx, rfl, _⟩ := (inFlight_iff hI hT).1 (hin m hm)
              exact List.mem_map_of_mem hx
            have hlen : l.length ≤ s.todo.length := by
              have := (List.subperm_of_subset hl hsub).length_le
              simpa [handles, hk] using this
            by_cases h0 : C.threadCount = 0
            · right
              cases l with
              | nil => rfl
              | cons m l =>
                exfalso
                obtain ⟨x, hx, rfl, hxl⟩ := (inFlight_iff hI hT).1 (hin m (by simp))
                exact (hI.launched x hx hxl).2.1 (hI.seq h0 _)
            · left
              have : ¬ s.todo.length ≥ C.threadCount := fun h => hcap ⟨h, h0⟩
              omega
        · split at hx
          · have := hI.pickLaunched hp x hx
            rw [this] at hl; cases hl
          · have := hI.pickLaunched hp x hx
            rw [this] at hl; cases hl
    | susp d =>
      have h0 := h.pend (by rw [hp]; rfl) x
      rw [hp] at h0
      have he : ctlStep C s ok = { s.emit .resumed with phase := if d then .drainTop else .loopTop } := by
        unfold ctlStep; rw [hp]
      rw [he] at hx ⊢
      have := (h0 hx hl).append (evs := [.resumed]) (by simp) (j := 1) (by rfl)
      cases d <;> exact this
    | drainTop =>
      have h0 := h.pend (by rw [hp]; rfl) x
      rw [hp] at h0
      have he : ctlStep C s ok = if s.todo = [] then { s.emit (.afterExecution s.erec) with phase := .finished }
          else { s with phase := .clean true } := by unfold ctlStep; rw [hp]
      rw [he] at hx ⊢
      split at hx
      · rename_i hc
        have hx' : x ∈ s.todo := hx
        rw [hc] at hx'; cases hx'
      · rename_i hc
        rw [if_neg hc]
        exact h0 hx hl
    | finished => unfold ctlStep at ha; rw [hp] at ha; cases ha
    | unwinding e =>
      unfold ctlStep at ha; rw [hp] at ha; dsimp only at ha
      split at ha
      · cases ha
      · rw [hp] at ha; cases ha
    | threw e => unfold ctlStep at ha; rw [hp] at ha; cases ha
    | destroying =>
      unfold ctlStep at ha; rw [hp] at ha; dsimp only at ha
      split at ha
      · cases ha
      · rw [hp] at ha; cases ha
    | destroyed => unfold ctlStep at ha; rw [hp] at ha; dsimp only at ha; rw [hp] at ha; cases ha
    | ub => unfold ctlStep at ha; rw [hp] at ha; dsimp only at ha; rw [hp] at ha; cases ha
    | abort => unfold ctlStep at ha; rw [hp] at ha; dsimp only at ha; rw [hp] at ha; cases ha
    | outOfFuel => unfold ctlStep at ha; rw [hp] at ha; dsimp only at ha; rw [hp] at ha; cases ha

theorem always_prefix {P : List Event → Event → Prop} {a b : List Event} (h : Always P (a ++ b)) :
    Always P a := by
  rintro pre e post rfl
  exact h pre e (post ++ b) (by simp)

theorem prio_exec (hwf : C.dag.WF) {roots : List Node} (hr : ByAddress C.dag roots) (ms : List Move) :
    Prio C (startOrder C.dag roots) (exec C ms) := by
  induction ms using List.reverseRecOn with
  | nil => exact ⟨always_nil, fun h => by cases h⟩
  | append_singleton ms m h =>
    rw [exec_snoc]
    cases m with
    | ctl => exact prio_ctl hwf hr ms h true
    | ctlFail => exact prio_ctl hwf hr ms h false
    | fault f =>
      have hc := prio_ctl hwf hr ms h true
      show Prio _ _ (faultStep C (exec C ms) f)
      rcases fault_cases C (exec C ms) f with h1 | ⟨_, _, _, _, _, _, _, h1⟩ | ⟨pre, e, post, _, h2, _, _, h1⟩ |
        ⟨_, _, h1⟩
      · rw [h1]; exact hc
      · rw [h1]; exact ⟨hc.past, fun h => by cases h⟩
      · rw [h1]
        refine ⟨?_, fun h => by cases h⟩
        have := hc.past
        rw [h2, show (exec C ms).trace ++ (pre ++ e :: post) = (exec C ms).trace ++ (pre ++ [e]) ++ post by
          simp] at this
        exact always_prefix this
      · rw [h1]; exact ⟨h.past, fun h => by cases h⟩
    | begin n =>
      simp only [step]
      split
      · exact h
      · split
        · refine ⟨always_snoc h.past (by simp), fun ha x hx hl => ?_⟩
          exact (h.pend ha x hx hl).append (by simp) (by rfl)
        · exact h
    | finish n =>
      simp only [step]
      split
      · exact h
      · split
        · refine ⟨always_snoc h.past (by simp), fun ha x hx hl => ?_⟩
          exact (h.pend ha x hx hl).append (by simp) (by rfl)
        · exact h
    | destroy =>
      simp only [step, destroyStep]
      split <;> first | exact h | exact ⟨h.past, fun h => by cases h⟩

/-- **C93**.  For every dag there is one order of its tasks, and every task that is started is the first
of those in it that could start when it was chosen, one tick before. -/
theorem C93_priority (C : Cfg) (hwf : C.dag.WF) (roots : List Node) (hr : ByAddress C.dag roots)
    (ms : List Move) (pre post : List Event) (er : ExecRecord) (n : Node)
    (htr : (exec C ms).trace = pre ++ .beforeRun er n :: post) :
    Chosen C (startOrder C.dag roots) 1 pre n :=
  (prio_exec hwf hr ms).past pre _ post htr er n rfl

/-- the tasks started, in order -/
def startsOf (tr : List Event) : List Node :=
  tr.filterMap fun e => match e with
    | .beforeRun _ n => some n
    | _ => none

theorem startsOf_append (a b : List Event) : startsOf (a ++ b) = startsOf a ++ startsOf b :=
  List.filterMap_append ..

theorem mem_startsOf {tr : List Event} {n : Node} :
    n ∈ startsOf tr ↔ ∃ er, Event.beforeRun er n ∈ tr := by
  unfold startsOf
  rw [List.mem_filterMap]
  constructor
  · rintro ⟨e, he, h⟩
    split at h
    · rename_i er m
      obtain rfl : m = n := by simpa using h
      exact ⟨er, he⟩
    · cases h
  · rintro ⟨er, h⟩; exact ⟨_, h, rfl⟩

theorem startsOf_none {tr : List Event} (h : ∀ er m, Event.beforeRun er m ∉ tr) : startsOf tr = [] := by
  cases hs : startsOf tr with
  | nil => rfl
  | cons a l =>
    obtain ⟨er, h1⟩ := mem_startsOf.1 (show a ∈ startsOf tr by rw [hs]; simp)
    exact absurd h1 (h er a)

/-- with at most one thread: nothing is in flight when a task is chosen, so it is the next one -/
theorem chosen_next (hwf : C.dag.WF) (h1 : C.threadCount ≤ 1) (hac : ¬ Cyclic C.dag) {roots : List Node}
    (hr : ByAddress C.dag roots) {k : Nat} {tr : List Event} {n : Node}
    (hc : Chosen C (startOrder C.dag roots) k tr n)
    (hp : startsOf tr <+: startOrder C.dag roots) :
    startsOf tr ++ [n] <+: startOrder C.dag roots ∧ ∀ m ∈ startsOf tr, Recorded tr m := by
  obtain ⟨hperm, htopo⟩ := C93_order C.dag hwf hac roots hr
  have hnd : (startOrder C.dag roots).Nodup := hperm.nodup_iff.2 hwf.nodup
  generalize startOrder C.dag roots = L at *
  obtain ⟨pre, mid, rfl, _, hno, hset, hcap, a, b, hL, hcs, hfirst⟩ := hc
  rw [startsOf_append, startsOf_none hno, List.append_nil] at hp ⊢
  have hidle : ∀ m, ¬ InFlight pre m := by
    intro m hm
    rcases hcap [m] (by simp) (by simpa using hm) with h | h
    · simp at h; omega
    · cases h
  have hrec : ∀ m ∈ startsOf pre, Recorded pre m := by
    intro m hm
    have hmn : m ∈ C.dag.nodes := hperm.mem_iff.1 (hp.subset hm)
    obtain ⟨er, he⟩ := mem_startsOf.1 hm
    rcases hset m hmn with h | ⟨h | h, _⟩
    · have : Tag.before ∈ life m pre := List.mem_filterMap.2 ⟨_, he, by simp [tagOf]⟩
      rw [h] at this; cases this
    · exact h
    · exact absurd h (hidle m)
  have hfresh : ∀ m ∈ C.dag.nodes, m ∉ startsOf pre → life m pre = [] := by
    intro m hm hms
    rcases hset m hm with h | ⟨_, h⟩
    · exact h
    · exact absurd (mem_startsOf.2 h) hms
  have hnot : n ∉ startsOf pre := by
    intro hn
    obtain ⟨er, he⟩ := mem_startsOf.1 hn
    have : Tag.before ∈ life n pre := List.mem_filterMap.2 ⟨_, he, by simp [tagOf]⟩
    rw [hcs.fresh] at this; cases this
  refine ⟨?_, fun m hm => ?_⟩
  · obtain ⟨R, hR⟩ := hp
    cases R with
    | nil =>
      exfalso; apply hnot
      rw [List.append_nil] at hR
      rw [hR, hL]; simp
    | cons x R =>
      have hxL : x ∈ L := by rw [← hR]; simp
      have hx : CanStart C pre x := by
        refine ⟨hperm.mem_iff.1 hxL, hfresh x (hperm.mem_iff.1 hxL) ?_, ?_, ?_⟩
        · intro hx
          rw [← hR, List.nodup_append] at hnd
          exact hnd.2.2 x hx x (by simp) rfl
        · intro m hm
          exact hrec m (htopo _ x R hR.symm m hm)
        · intro m hm; exact absurd hm (hidle m)
      obtain rfl : x = n := by
        -- both splits of the order
        by_contra hne
        have hxa : x ∉ a := fun h => hfirst x h hx
        have hxb : x ∈ b := by
          rw [hL] at hxL
          rcases List.mem_append.1 hxL with h | h
          · exact absurd h hxa
          · exact (List.mem_cons.1 h).resolve_left hne
        have hnR : n ∈ R := by
          have : n ∈ startsOf pre ++ x :: R := by rw [hR, hL]; simp
          rcases List.mem_append.1 this with h | h
          · exact absurd h hnot
          · exact (List.mem_cons.1 h).resolve_left fun e => hne e.symm
        -- `x` before `n` in one and after it in the other
        obtain ⟨b1, b2, rfl⟩ := List.append_of_mem hxb
        obtain ⟨r1, r2, rfl⟩ := List.append_of_mem hnR
        have h1 : L.idxOf x < L.idxOf n := by
          rw [← hR]
          have hxs : x ∉ startsOf pre := fun h => by
            rw [← hR, List.nodup_append] at hnd
            exact hnd.2.2 x h x (by simp) rfl
          rw [List.idxOf_append_of_notMem hxs, List.idxOf_append_of_notMem hnot, List.idxOf_cons_self,
            List.idxOf_cons_ne _ hne]
          omega
        have h2 : L.idxOf n < L.idxOf x := by
          rw [hL]
          have hna : n ∉ a := fun h => hfirst n h hcs
          rw [List.idxOf_append_of_notMem hna, List.idxOf_append_of_notMem hxa, List.idxOf_cons_self,
            List.idxOf_cons_ne _ (Ne.symm hne)]
          omega
        omega
      exact ⟨R, by rw [← hR]; simp⟩
  · obtain ⟨r, hr, h⟩ := hrec m hm
    exact ⟨r, by rw [recsOf_append]; exact List.mem_append_left _ hr, h⟩

/-- a record comes after the start of its task -/
theorem started_of_afterRun {s : St} (hT : TInv C s) {pre post : List Event} {er : ExecRecord}
    {r : RunRecord} {m : Node} (htr : s.trace = pre ++ .afterRun er r m :: post) :
    r.node ∈ startsOf pre := by
  have hr : r ∈ s.erec.runs := by
    rw [← hT.recs, htr, recsOf_append]
    exact List.mem_append_right _ (by simp [recsOf])
  have hl := hT.lifeRec r hr
  rw [htr, life_append] at hl
  have hb : ∃ l, recLife C.threadCount r.status = .before :: l := by
    cases r.status <;> simp [recLife] <;> split <;> simp
  obtain ⟨l, hb⟩ := hb
  rw [hb] at hl
  have ha : life r.node (.afterRun er r m :: post) = .after :: life r.node post := by
    simp [life, tagOf]
  rw [ha] at hl
  cases hp : life r.node pre with
  | nil => rw [hp] at hl; simp at hl
  | cons t ts =>
    rw [hp] at hl
    have ht : t = .before := by simpa using (List.cons.inj hl).1
    subst ht
    have hm : Tag.before ∈ life r.node pre := by rw [hp]; simp
    obtain ⟨e, he, ht⟩ := List.mem_filterMap.1 hm
    unfold tagOf at ht
    split at ht <;> (try split at ht) <;> simp at ht
    rename_i er' m' hm'
    rw [hm'] at he
    exact mem_startsOf.2 ⟨er', he⟩

theorem eq_of_prefix_subset {a b : List Node} (h : a <+: b) (hnd : b.Nodup) (hs : ∀ x ∈ b, x ∈ a) : a = b := by
  obtain ⟨c, rfl⟩ := h
  cases c with
  | nil => simp
  | cons x c =>
    rw [List.nodup_append] at hnd
    exact absurd rfl (hnd.2.2 x (hs x (by simp)) x (by simp))

/-- **C93**, `thread_count` 0 or 1: tasks are started and recorded in this order.  So at any moment of any
execution (also one that fails) the tasks started so far are a beginning of it, and so are the tasks
recorded; and when the execution has returned its record, the records are in this order. -/
theorem C93_sequential (C : Cfg) (hwf : C.dag.WF) (h1 : C.threadCount ≤ 1) (hac : ¬ Cyclic C.dag)
    (roots : List Node) (hr : ByAddress C.dag roots) (ms : List Move) :
    startsOf (exec C ms).trace <+: startOrder C.dag roots ∧
    (recsOf (exec C ms).trace).map RunRecord.node <+: startOrder C.dag roots ∧
    ((exec C ms).phase = .finished →
      (exec C ms).erec.runs.map RunRecord.node = startOrder C.dag roots) := by
  have hperm := (C93_order C.dag hwf hac roots hr).1
  have hLnd : (startOrder C.dag roots).Nodup := hperm.nodup_iff.2 hwf.nodup
  obtain ⟨hI, hT⟩ := both_exec hwf ms
  have hnd := (C02_no_double_record C hwf ms).1
  have hP := (prio_exec hwf hr ms).past
  have key : ∀ tr, tr <+: (exec C ms).trace → startsOf tr <+: startOrder C.dag roots ∧
      (recsOf tr).map RunRecord.node <+: startsOf tr ∧
      (startsOf tr).length ≤ (recsOf tr).length + 1 := by
    intro tr
    induction tr using List.reverseRecOn with
    | nil => intro _; simp [startsOf, recsOf]
    | append_singleton tr e ih =>
      intro htr
      obtain ⟨post, hpost⟩ := htr
      have hpost' : (exec C ms).trace = tr ++ e :: post := by rw [← hpost]; simp
      obtain ⟨i1, i2, i3⟩ := ih ⟨e :: post, hpost'.symm⟩
      rw [startsOf_append, recsOf_append, List.map_append]
      have other : startsOf [e] = [] → recsOf [e] = [] →
          startsOf tr ++ startsOf [e] <+: startOrder C.dag roots ∧
          (recsOf tr).map RunRecord.node ++ (recsOf [e]).map RunRecord.node <+:
            startsOf tr ++ startsOf [e] ∧
          (startsOf tr ++ startsOf [e]).length ≤ (recsOf tr ++ recsOf [e]).length + 1 := by
        intro e1 e2
        rw [e1, e2, List.append_nil, List.append_nil, List.map_nil, List.append_nil]
        exact ⟨i1, i2, i3⟩
      cases e with
      | beforeRun er n =>
        obtain ⟨c1, c2⟩ := chosen_next hwf h1 hac hr (hP tr _ post hpost' er n rfl) i1
        have heq : (recsOf tr).map RunRecord.node = startsOf tr := by
          refine eq_of_prefix_subset i2 (i1.sublist.nodup hLnd) fun x hx => ?_
          obtain ⟨r, hr, rfl⟩ := c2 x hx
          exact List.mem_map_of_mem hr
        have e1 : startsOf [Event.beforeRun er n] = [n] := rfl
        have e2 : recsOf [Event.beforeRun er n] = [] := rfl
        rw [e1, e2, List.map_nil, List.append_nil, List.append_nil, heq]
        refine ⟨c1, List.prefix_append _ _, ?_⟩
        rw [← heq]; simp
      | afterRun er r m =>
        have hst := started_of_afterRun hT hpost'
        have hnr : r.node ∉ (recsOf tr).map RunRecord.node := by
          rw [hpost', recsOf_append, List.map_append, List.nodup_append] at hnd
          intro hx
          exact hnd.2.2 _ hx _ (by simp [recsOf]) rfl
        have e1 : startsOf [Event.afterRun er r m] = [] := rfl
        have e2 : recsOf [Event.afterRun er r m] = [r] := rfl
        rw [e1, e2, List.append_nil, List.map_singleton]
        obtain ⟨c, hc⟩ := i2
        have hlen : c.length ≤ 1 := by
          have := congrArg List.length hc
          simp at this; omega
        have hcr : r.node ∈ c := by
          rw [← hc] at hst
          exact (List.mem_append.1 hst).resolve_left hnr
        obtain rfl : c = [r.node] := by
          match c, hlen, hcr with
          | [x], _, h => rw [List.mem_singleton.1 h]
        refine ⟨i1, ⟨[], by rw [List.append_nil, hc]⟩, ?_⟩
        simp; omega
      | _ => exact other rfl rfl
  obtain ⟨k1, k2, _⟩ := key _ (List.prefix_refl _)
  refine ⟨k1, k2.trans k1, fun hfin => ?_⟩
  have h2 := (C02_one_record C hwf ms hfin).1
  rw [← hT.recs] at h2 ⊢
  exact (k2.trans k1).eq_of_length (by rw [h2.length_eq, hperm.length_eq])

/-- In the order for the dag of five tasks 4 comes before 2, which runs after it.  Without threads the
tasks are started so; with two threads 4 has to wait for the resource 1 holds, and 5 is started first. -/
example : ByAddress Ex.dag [1, 2, 3, 4, 5] ∧ startOrder Ex.dag [1, 2, 3, 4, 5] = [1, 4, 2, 3, 5] ∧
    (exec (Ex.cfg 0) (List.replicate 31 .ctl)).phase = .finished ∧
    (exec (Ex.cfg 0) (List.replicate 31 .ctl)).erec.runs.map RunRecord.node = [1, 4, 2, 3, 5] ∧
    startsOf (exec (Ex.cfg 2) Ex.done2).trace = [1, 5, 4, 2, 3] :=
  ⟨⟨by decide +kernel, by decide⟩, by decide +kernel, by decide +kernel, by decide +kernel,
    by decide +kernel⟩

example : ¬ Cyclic Ex.dag := (Ex.healthy 0).acyclic

/-- the start of 5: nothing else could -/
example : ∃ pre post er, (exec (Ex.cfg 2) Ex.done2).trace = pre ++ .beforeRun er 5 :: post := by
  have h : ∃ e ∈ (exec (Ex.cfg 2) Ex.done2).trace, (match e with
      | .beforeRun _ n => decide (n = 5)
      | _ => false) = true := by decide +kernel
  obtain ⟨e, he, h⟩ := h
  obtain ⟨pre, post, hs⟩ := List.append_of_mem he
  split at h
  · obtain rfl := of_decide_eq_true h
    exact ⟨pre, post, _, hs⟩
  · cases h

end Joque
