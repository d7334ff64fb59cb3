import Verif.Props.Prompt
import Verif.Props.OneWorker
import Verif.Proof.Origin
import Verif.Spec.Makespan

/-! # C83: the length of an execution -/

namespace Joque

variable {C : Cfg}

/-! ## Ticks that start nothing, report nothing -/

/-- some task is started among these events -/
def Started (evs : List Event) : Prop := ∃ er n, Event.beforeRun er n ∈ evs

theorem Started.busy {evs : List Event} (h : Started evs) : Busy evs := by
  obtain ⟨er, n, h⟩ := h; exact ⟨_, h, rfl⟩

theorem Started.append_left {a b : List Event} (h : Started a) : Started (a ++ b) := by
  obtain ⟨er, n, h⟩ := h; exact ⟨er, n, List.mem_append_left _ h⟩

theorem Started.append_right {a b : List Event} (h : Started b) : Started (a ++ b) := by
  obtain ⟨er, n, h⟩ := h; exact ⟨er, n, List.mem_append_right _ h⟩

/-- `thread_count` jobs are in flight -/
def AllBusy (C : Cfg) (tr : List Event) : Prop :=
  ∃ l : List Node, l.Nodup ∧ l.length = C.threadCount ∧ ∀ n ∈ l, InFlight tr n

/-- the tick starts or reports something, or could not start anything -/
def TickUsed (C : Cfg) (pre mid : List Event) : Prop :=
  Busy mid ∨ AllBusy C pre ∨ ∀ n, ¬ CanStart C pre n

/-- the tick before was used, or it found the task that this one starts -/
def PairOK (C : Cfg) (pre mid : List Event) : Prop :=
  ∀ pre0 mid0, pre = pre0 ++ Event.resumed :: mid0 → Event.resumed ∉ mid0 →
    TickUsed C pre0 mid0 ∨ Started mid

/-- some task was found and is not started yet -/
def Pending (s : St) : Prop := ∃ sl ∈ s.todo, sl.h.launched = false

structure GCur (C : Cfg) (s : St) (pre mid : List Event) : Prop where
  prev : ∀ pre0 mid0, pre = pre0 ++ Event.resumed :: mid0 → Event.resumed ∉ mid0 →
    TickUsed C pre0 mid0 ∨ Started mid ∨
      ((s.phase = .loopTop ∨ s.phase = .drainTop ∨ s.phase.isClean = true) ∧ Pending s)
  cur : ∀ d, s.phase = .susp d → TickUsed C pre mid ∨ Pending s

def TickInv2 (C : Cfg) (s : St) : Prop :=
  Ticks (PairOK C) s.trace ∧ (s.phase.active = true →
    ∃ pre mid, s.trace = pre ++ Event.resumed :: mid ∧ Event.resumed ∉ mid ∧ GCur C s pre mid)

theorem start_started {s : St} (ok : Bool) (ref : Node) (h : Handle) (rest : List Slot)
    (hi : s.flags.inval h.node ≠ .unknown) :
    (s.trace ++ [.beforeRun s.erec h.node]) <+: (startRun C s ok ref h rest).trace := by
  unfold startRun
  dsimp only
  rw [if_neg hi]
  split
  · exact ⟨[_], rfl⟩
  · split
    · exact ⟨[_], rfl⟩
    · split
      · refine List.IsPrefix.trans ?_ (collect_trace_prefix _ _ _ _ _)
        exact ⟨[.jobBegin h.node true, .jobEnd h.node], by simp [St.emit]⟩
      · split
        · exact ⟨[_], rfl⟩
        · exact ⟨[], by simp [St.emit]⟩

/-- `CanStart` judged at the start of a tick, if nothing is started or reported in it -/
theorem CanStart.later {s : St} (hI : Inv C s) (hT : TInv C s) (ha : s.phase.active = true)
    {pre mid : List Event} (h1 : s.trace = pre ++ Event.resumed :: mid) (hb : ¬ Busy mid)
    (hl : ∀ n, Event.launch n ∈ mid → Busy mid) {n : Node} (h : CanStart C pre n) :
    CanStart C s.trace n := by
  have hbef : Tag.before ∉ life n s.trace := by
    intro hm
    rw [← not_not (a := Tag.before ∈ life n s.trace), ← notStarted_iff] at hm
    apply hm
    intro er he
    rw [h1] at he
    simp only [List.mem_append, List.mem_cons, reduceCtorEq, false_or] at he
    rcases he with he | he
    · have : Tag.before ∈ life n pre := List.mem_filterMap.2 ⟨_, he, by simp [tagOf]⟩
      rw [h.fresh] at this; cases this
    · exact hb ⟨_, he, rfl⟩
  refine ⟨h.node, ?_, ?_, ?_⟩
  · have := hI.part ha n h.node
    unfold allNodes at this
    simp only [List.mem_append] at this
    rcases this with (hn | hn) | hn
    · obtain ⟨x, hx, rfl⟩ := List.mem_map.1 hn
      cases hla : x.launched
      · exact hT.life_fresh ha hx hla
      · exfalso; apply hbef
        rw [hT.life_launched ha hx hla]
        cases s.worker x.node <;> simp [workerLife]
    · obtain ⟨r, hr, rfl⟩ := List.mem_map.1 hn
      exfalso; apply hbef
      rw [hT.lifeRec r hr]
      cases r.status <;> simp [recLife] <;> split <;> simp
    · exact hT.lifeTp n hn
  · intro m hm
    obtain ⟨r, hr, hn⟩ := h.preds m hm
    refine ⟨r, ?_, hn⟩
    rw [h1]; unfold recsOf at *
    rw [List.filterMap_append]; exact List.mem_append_left _ hr
  · intro m hm
    refine h.free m ⟨?_, ?_⟩
    · have := hm.1
      rw [h1] at this
      simp only [List.mem_append, List.mem_cons, reduceCtorEq, false_or] at this
      rcases this with h | h
      · exact h
      · exact absurd (hl m h) hb
    · rintro ⟨r, hr, hn⟩
      refine hm.2 ⟨r, ?_, hn⟩
      rw [h1]; unfold recsOf at *
      rw [List.filterMap_append]; exact List.mem_append_left _ hr

theorem InFlight.earlier {tr pre mid : List Event} (h1 : tr = pre ++ Event.resumed :: mid)
    (hb : ¬ Busy mid) (hl : ∀ n, Event.launch n ∈ mid → Busy mid) {m : Node} (hm : InFlight tr m) :
    InFlight pre m := by
  refine ⟨?_, ?_⟩
  · have := hm.1
    rw [h1] at this
    simp only [List.mem_append, List.mem_cons, reduceCtorEq, false_or] at this
    rcases this with h | h
    · exact h
    · exact absurd (hl m h) hb
  · rintro ⟨r, hr, hn⟩
    refine hm.2 ⟨r, ?_, hn⟩
    rw [h1]; unfold recsOf at *
    rw [List.filterMap_append]; exact List.mem_append_left _ hr

theorem pinv_exec (hwf : C.dag.WF) (ms : List Move) : PromptInv (exec C ms) :=
  (foldl_inv (P := fun s => Inv C s ∧ TInv C s ∧ PromptInv s)
    (fun _ m h => ⟨inv_step hwf h.1 m, h.2.1.step hwf h.1 m, prompt_step hwf h.1 h.2.1 h.2.2 m⟩)
    ms St.init ⟨inv_init C, tinv_init C, by
      refine ⟨fun pre mid post h => ?_, fun h => by cases h⟩
      cases pre <;> cases h⟩).2.2

/-- one tick at the time it is suspended -/
theorem launch_busy (hwf : C.dag.WF) (ms : List Move) (ha : (exec C ms).phase.active = true)
    {pre mid : List Event} (h1 : (exec C ms).trace = pre ++ Event.resumed :: mid)
    (h2 : Event.resumed ∉ mid) : ∀ n, Event.launch n ∈ mid → Busy mid := by
  obtain ⟨pre', mid', e1, e2, e3⟩ := (pinv_exec hwf ms).2 ha
  obtain ⟨rfl, rfl⟩ := last_resumed (e1.symm.trans h1) e2 h2
  exact e3.launch

theorem ginv_ctl (hwf : C.dag.WF) (ms : List Move) (h : TickInv2 C (exec C ms)) (ok : Bool) :
    TickInv2 C (ctlStep C (exec C ms) ok) := by
  obtain ⟨hI, hT⟩ := both_exec hwf ms
  have hlb := launch_busy (C := C) hwf ms
  have hwc := C14_work_conserving C hwf ms
  rw [exec_append] at hwc
  simp only [List.foldl, step] at hwc
  generalize exec C ms = s at *
  obtain ⟨hA, hB⟩ := h
  cases hp : s.phase with
  | created =>
    have hs := hI.createdInit hp
    have he : ctlStep C s ok = prologue C St.init := by
      unfold ctlStep; rw [hp]; simp only; rw [hs]
    obtain ⟨mid, h1, h2, h3⟩ := prologue_tail hwf
    have hno : Event.resumed ∉ mid := fun hm => by have := h2 _ hm; simp [proEv] at this
    rw [he]
    refine ⟨?_, fun hact => ⟨[], mid, h1, hno, ?_⟩⟩
    · intro pre mid' post heq hm'
      rw [h1] at heq
      exfalso
      cases pre with
      | nil =>
        have := (List.cons.inj heq).2
        exact hno (by rw [this]; simp)
      | cons e pre =>
        have := (List.cons.inj heq).2
        exact hno (by rw [this]; simp)
    · refine ⟨fun pre0 mid0 h => ?_, fun d h => ?_⟩
      · cases pre0 <;> cases h
      · rcases prologue_spec hwf with ⟨_, c, _, hp, _⟩ | ⟨_, _, hp, _⟩ |
            ⟨_, pre, n, post, _, _, _, _, ⟨_, hp⟩ | ⟨_, w, _, hp⟩⟩ <;> rw [hp] at h <;> cases h
  | loopTop =>
    obtain ⟨pre, mid, h1, h2, h3⟩ := hB (by rw [hp]; rfl)
    unfold ctlStep
    rw [hp]
    dsimp only
    split
    · refine ⟨hA, fun _ => ⟨pre, mid, h1, h2, ?_, fun d h => by cases h⟩⟩
      intro p0 m0 e1 e2
      rcases h3.prev p0 m0 e1 e2 with h | h | ⟨_, h⟩
      · exact .inl h
      · exact .inr (.inl h)
      · exact .inr (.inr ⟨.inr (.inl rfl), h⟩)
    · refine ⟨hA.append (by simp), fun _ => ⟨pre, mid ++ [.onTick s.erec], ?_, ?_, ?_,
        fun d h => by cases h⟩⟩
      · show s.trace ++ _ = _; rw [h1]; simp
      · simpa using h2
      · intro p0 m0 e1 e2
        rcases h3.prev p0 m0 e1 e2 with h | h | ⟨_, h⟩
        · exact .inl h
        · exact .inr (.inl h.append_left)
        · exact .inr (.inr ⟨.inr (.inr rfl), h⟩)
  | clean d =>
    have hact : s.phase.active = true := by rw [hp]; rfl
    obtain ⟨pre, mid, h1, h2, h3⟩ := hB hact
    have he : ctlStep C s ok = cleanStep C s ok d := by unfold ctlStep; rw [hp]
    rw [he]
    cases ht : s.todo with
    | nil =>
      have hq : cleanStep C s ok d = { s with
          todo := List.zipWith Slot.mk s.passed s.kept
          kept := [], passed := []
          phase := if d then .susp true else .pick } := by unfold cleanStep; rw [ht]
      rw [hq]
      refine ⟨hA, fun _ => ⟨pre, mid, h1, h2, ?_, ?_⟩⟩
      · intro p0 m0 e1 e2
        rcases h3.prev p0 m0 e1 e2 with h | h | ⟨_, sl, hsl, _⟩
        · exact .inl h
        · exact .inr (.inl h)
        · rw [ht] at hsl; cases hsl
      · intro d' hd
        left
        cases d with
        | false => cases hd
        | true =>
          by_cases hb : Busy mid
          · exact .inl hb
          · refine .inr (.inr fun n hn => ?_)
            have hc := hn.later hI hT hact h1 hb (hlb hact h1 h2)
            have htp := hI.drain (by rw [hp]; rfl)
            have := hI.part hact n hc.node
            unfold allNodes at this
            simp only [List.mem_append, htp, List.not_mem_nil, or_false] at this
            rcases this with hn | hn
            · obtain ⟨x, hx, rfl⟩ := List.mem_map.1 hn
              simp only [handles, ht, List.map_nil, List.append_nil] at hx
              have h5 := hT.life_launched hact (h := x) (by simp [handles, hx]) (hI.keptLaunched x hx)
              rw [hc.fresh] at h5
              cases hw : s.worker x.node <;> rw [hw] at h5 <;> simp [workerLife] at h5
            · obtain ⟨r, hr, rfl⟩ := List.mem_map.1 hn
              have h5 := hT.lifeRec r hr
              obtain ⟨x, hx, _⟩ := recLife_snoc C.threadCount r.status
              rw [hc.fresh, hx] at h5; simp at h5
    | cons sl rest =>
      by_cases ha : (cleanStep C s ok d).phase.active = true
      · obtain ⟨e1, e0⟩ := clean_shape hp ht ha
        have hcur : ∀ d', (cleanStep C s ok d).phase = .susp d' → False := by
          intro d' h; rw [e1] at h; cases h
        cases hsl : sl.h.launched with
        | false =>
          have hu : s.flags.inval sl.h.node ≠ .unknown := by
            have hin := hI.inNodes sl.h.node (by
              unfold allNodes handles; simp [ht])
            have := hI.invalActive hact _ hin
            by_cases hst : Stale C.dag C.ask sl.h.node
            · rw [this.1 hst]; simp
            · rw [this.2 hst]; simp
          have hpre := start_started (C := C) (s := s) ok sl.ref sl.h rest hu
          have hq : cleanStep C s ok d = startRun C s ok sl.ref sl.h rest := by
            unfold cleanStep; rw [ht]; dsimp only; rw [hsl]; rfl
          rw [← hq] at hpre
          obtain ⟨more, hmore⟩ := hpre
          rcases e0 with ⟨evs, e2, e3, e4, e5⟩ | ⟨e2, _, _, e5⟩
          · refine ⟨by rw [e2]; exact hA.append e4, fun _ => ⟨pre, mid ++ evs, by rw [e2, h1]; simp,
              by simp [h2, e4], ?_, fun d' h => (hcur d' h).elim⟩⟩
            intro p0 m0 g1 g2
            refine .inr (.inl ?_)
            rw [e2, List.append_assoc] at hmore
            have := List.append_cancel_left hmore
            rw [← this]
            exact ⟨s.erec, sl.h.node, by simp⟩
          · rw [hsl] at e5; cases e5
        | true =>
          rcases e0 with ⟨evs, e2, e3, e4, e5⟩ | ⟨e2, e3, e4, e5⟩
          · -- the record of a finished job
            have hrest : (cleanStep C s ok d).todo = rest := by
              unfold cleanStep; rw [ht]; dsimp only; rw [hsl]
              simp only [Bool.not_true, Bool.false_eq_true, if_false]
              split
              · have hph : (collect C s sl.ref sl.h rest).phase ≠ .ub := by
                  rename_i hw
                  intro hub
                  unfold cleanStep at ha; rw [ht] at ha; dsimp only at ha; rw [hsl] at ha
                  simp only [Bool.not_true, Bool.false_eq_true, if_false, hw, if_true] at ha
                  rw [hub] at ha; cases ha
                unfold collect at hph ⊢
                dsimp only at hph ⊢
                split
                · rename_i hn; rw [hn] at hph; exact absurd rfl hph
                · rfl
              · rfl
            refine ⟨by rw [e2]; exact hA.append e4, fun _ => ⟨pre, mid ++ evs, by rw [e2, h1]; simp,
              by simp [h2, e4], ?_, fun d' h => (hcur d' h).elim⟩⟩
            intro p0 m0 g1 g2
            rcases h3.prev p0 m0 g1 g2 with h | h | ⟨_, x, hx, hxl⟩
            · exact .inl h
            · exact .inr (.inl h.append_left)
            · refine .inr (.inr ⟨.inr (.inr (by rw [e1]; rfl)), x, ?_, hxl⟩)
              rw [hrest]
              rw [ht] at hx
              rcases List.mem_cons.1 hx with rfl | hx
              · rw [hsl] at hxl; cases hxl
              · exact hx
          · have hrest : (cleanStep C s ok d).todo = rest := by
              unfold cleanStep; rw [ht]; dsimp only; rw [hsl]
              simp only [Bool.not_true, Bool.false_eq_true, if_false]
              rw [if_neg e4]
            refine ⟨by rw [e2]; exact hA, fun _ => ⟨pre, mid, by rw [e2, h1], h2, ?_,
              fun d' h => (hcur d' h).elim⟩⟩
            intro p0 m0 g1 g2
            rcases h3.prev p0 m0 g1 g2 with h | h | ⟨_, x, hx, hxl⟩
            · exact .inl h
            · exact .inr (.inl h)
            · refine .inr (.inr ⟨.inr (.inr (by rw [e1]; rfl)), x, ?_, hxl⟩)
              rw [hrest]
              rw [ht] at hx
              rcases List.mem_cons.1 hx with rfl | hx
              · rw [hsl] at hxl; cases hxl
              · exact hx
      · obtain ⟨evs, e1, e2⟩ := ctl_events C s ok
        rw [he] at e1 e2
        have hev : Event.resumed ∉ evs := by
          generalize (cleanStep C s ok d).phase = p at e2
          cases e2 with
          | prologue _ h => rw [hp] at h; cases h
          | tick h => rw [hp] at h; cases h
          | resumed _ h => rw [hp] at h; cases h
          | afterExecution h => rw [hp] at h; cases h
          | _ => simp
        exact ⟨by rw [e1]; exact hA.append hev, fun h => absurd h ha⟩
  | pick =>
    have hact : s.phase.active = true := by rw [hp]; rfl
    obtain ⟨pre, mid, h1, h2, h3⟩ := hB hact
    have hq : ctlStep C s ok = ctlStep C s true := by unfold ctlStep; rw [hp]
    have htr : (ctlStep C s true).trace = s.trace := by
      unfold ctlStep; rw [hp]; dsimp only
      unfold pickStep
      split
      · rfl
      · split
        · rfl
        · rfl
        · split <;> rfl
    have hph : (ctlStep C s true).phase ≠ .pick := by
      unfold ctlStep; rw [hp]; dsimp only
      unfold pickStep
      split
      · simp
      · split
        · simp
        · simp
        · split <;> simp
    rw [hq]
    refine ⟨by rw [htr]; exact hA, fun ha => ⟨pre, mid, by rw [htr, h1], h2, ?_, ?_⟩⟩
    · intro p0 m0 e1 e2
      rcases h3.prev p0 m0 e1 e2 with h | h | ⟨h | h | h, _⟩
      · exact .inl h
      · exact .inr (.inl h)
      all_goals rw [hp] at h; cases h
    · intro d hd
      by_cases hb : Busy mid
      · exact .inl (.inl hb)
      · have hle := hlb hact h1 h2
        rcases hwc hp with ⟨n, _, _, h5⟩ | ⟨_, _, ⟨_, l, l1, l2, l3⟩ | h5⟩
        · right
          exact ⟨⟨n, { node := n, launched := false, start := 0 }⟩, by rw [h5]; simp, rfl⟩
        · exact .inl (.inr (.inl ⟨l, l1, l2, fun n hn => (l3 n hn).earlier h1 hb hle⟩))
        · exact .inl (.inr (.inr fun n hn => h5 n (hn.later hI hT hact h1 hb hle)))
  | susp d =>
    have hact : s.phase.active = true := by rw [hp]; rfl
    obtain ⟨pre, mid, h1, h2, h3⟩ := hB hact
    unfold ctlStep
    rw [hp]
    dsimp only
    have hok : PairOK C pre mid := by
      intro p0 m0 e1 e2
      rcases h3.prev p0 m0 e1 e2 with h | h | ⟨h | h | h, _⟩
      · exact .inl h
      · exact .inr h
      all_goals rw [hp] at h; cases h
    refine ⟨?_, fun _ => ⟨s.trace, [], rfl, by simp, ?_, ?_⟩⟩
    · show Ticks (PairOK C) (s.trace ++ [.resumed])
      rw [h1] at hA ⊢
      exact hA.resume h2 hok
    · intro p0 m0 e1 e2
      obtain ⟨rfl, rfl⟩ := last_resumed (h1.symm.trans e1) h2 e2
      rcases h3.cur d hp with h | h
      · exact .inl h
      · refine .inr (.inr ⟨?_, h⟩)
        cases d
        · exact .inl rfl
        · exact .inr (.inl rfl)
    · intro d' h; cases d <;> cases h
  | drainTop =>
    have hact : s.phase.active = true := by rw [hp]; rfl
    obtain ⟨pre, mid, h1, h2, h3⟩ := hB hact
    unfold ctlStep
    rw [hp]
    dsimp only
    split
    · rename_i h0
      refine ⟨hA.append (by simp), fun _ => ⟨pre, mid ++ [.afterExecution s.erec], ?_, ?_, ?_,
        fun d h => by cases h⟩⟩
      · show s.trace ++ _ = _; rw [h1]; simp
      · simpa using h2
      · intro p0 m0 e1 e2
        rcases h3.prev p0 m0 e1 e2 with h | h | ⟨_, sl, hsl, _⟩
        · exact .inl h
        · exact .inr (.inl h.append_left)
        · rw [h0] at hsl; cases hsl
    · refine ⟨hA, fun _ => ⟨pre, mid, h1, h2, ?_, fun d h => by cases h⟩⟩
      intro p0 m0 e1 e2
      rcases h3.prev p0 m0 e1 e2 with h | h | ⟨_, h⟩
      · exact .inl h
      · exact .inr (.inl h)
      · exact .inr (.inr ⟨.inr (.inr rfl), h⟩)
  | unwinding e =>
    unfold ctlStep; rw [hp]; dsimp only
    split
    · exact ⟨hA, fun h => by cases h⟩
    · exact ⟨hA, hB⟩
  | destroying =>
    unfold ctlStep; rw [hp]; dsimp only
    split
    · exact ⟨hA, fun h => by cases h⟩
    · exact ⟨hA, hB⟩
  | finished => unfold ctlStep; rw [hp]; exact ⟨hA, fun h => by cases h⟩
  | threw e => unfold ctlStep; rw [hp]; exact ⟨hA, fun h => by cases h⟩
  | destroyed => unfold ctlStep; rw [hp]; exact ⟨hA, hB⟩
  | ub => unfold ctlStep; rw [hp]; exact ⟨hA, hB⟩
  | abort => unfold ctlStep; rw [hp]; exact ⟨hA, hB⟩
  | outOfFuel => unfold ctlStep; rw [hp]; exact ⟨hA, hB⟩

/-- adding an event of a worker -/
theorem GCur.worker {s s' : St} {pre mid : List Event} (h : GCur C s pre mid) {e : Event}
    (hp : s'.phase = s.phase) (ht : s'.todo = s.todo) : GCur C s' pre (mid ++ [e]) := by
  constructor
  · intro p0 m0 e1 e2
    rcases h.prev p0 m0 e1 e2 with h | h | ⟨h1, sl, h2, h3⟩
    · exact .inl h
    · exact .inr (.inl h.append_left)
    · exact .inr (.inr ⟨by rw [hp]; exact h1, sl, by rw [ht]; exact h2, h3⟩)
  · intro d hd
    rcases h.cur d (hp ▸ hd) with (h | h) | ⟨sl, h2, h3⟩
    · exact .inl (.inl h.append_left)
    · exact .inl (.inr h)
    · exact .inr ⟨sl, by rw [ht]; exact h2, h3⟩

theorem ginv_exec (hwf : C.dag.WF) (ms : List Move) : TickInv2 C (exec C ms) := by
  induction ms using List.reverseRecOn with
  | nil =>
    refine ⟨fun pre mid post h => ?_, fun h => by cases h⟩
    cases pre <;> cases h
  | append_singleton ms m h =>
    rw [exec_snoc]
    cases m with
    | ctl => exact ginv_ctl hwf ms h true
    | ctlFail => exact ginv_ctl hwf ms h false
    | fault f =>
      have hc := ginv_ctl hwf ms h true
      show TickInv2 C (faultStep C (exec C ms) f)
      rcases fault_cases C (exec C ms) f with h1 | ⟨_, _, _, _, _, _, _, h1⟩ | ⟨pre, e, post, _, h2, _, _, h1⟩ |
      ⟨_, _, h1⟩
      · rw [h1]; exact hc
      · rw [h1]; exact ⟨hc.1, fun h => by cases h⟩
      · rw [h1]
        refine ⟨hc.1.prefix ?_, fun h => by cases h⟩
        rw [h2]
        exact ⟨post, by simp⟩
      · rw [h1]; exact ⟨h.1, fun h => by cases h⟩
    | begin n =>
      simp only [step]
      split
      · exact h
      · split
        · refine ⟨h.1.append (by simp), fun hact => ?_⟩
          obtain ⟨pre, mid, h1, h2, h3⟩ := h.2 hact
          refine ⟨pre, mid ++ [.jobBegin n false], ?_, by simpa using h2, h3.worker rfl rfl⟩
          show (exec C ms).trace ++ _ = _
          rw [h1]; simp
        · exact h
    | finish n =>
      simp only [step]
      split
      · exact h
      · split
        · refine ⟨h.1.append (by simp), fun hact => ?_⟩
          obtain ⟨pre, mid, h1, h2, h3⟩ := h.2 hact
          refine ⟨pre, mid ++ [.jobEnd n], ?_, by simpa using h2, h3.worker rfl rfl⟩
          show (exec C ms).trace ++ _ = _
          rw [h1]; simp
        · exact h
    | destroy =>
      simp only [step, destroyStep]
      split <;> first | exact h | exact ⟨h.1, fun h => by cases h⟩

/-! ## Counting -/

theorem ticksWhere_snoc (P : List Event → Prop) [DecidablePred P] (a : List Event) (e : Event) :
    ticksWhere P (a ++ [e]) = ticksWhere P a + if e = .resumed ∧ P a then 1 else 0 := by
  classical
  unfold ticksWhere
  rw [List.length_append, List.length_singleton, List.range_succ, List.countP_append]
  congr 1
  · refine List.countP_congr fun i hi => ?_
    have hi := List.mem_range.1 hi
    simp only [decide_eq_true_eq]
    rw [List.getElem?_append_left hi, List.take_append_of_le_length (Nat.le_of_lt hi)]
  · simp [List.countP_cons]

theorem ticksWhere_append (P : List Event → Prop) (a b : List Event) :
    ticksWhere P a ≤ ticksWhere P (a ++ b) := by
  classical
  induction b using List.reverseRecOn with
  | nil => simp
  | append_singleton b e ih =>
    rw [← List.append_assoc, ticksWhere_snoc]; omega

theorem ticksWhere_quiet (P : List Event → Prop) (a : List Event) {b : List Event}
    (hb : Event.resumed ∉ b) : ticksWhere P (a ++ b) = ticksWhere P a := by
  classical
  induction b using List.reverseRecOn with
  | nil => simp
  | append_singleton b e ih =>
    rw [List.mem_append, List.mem_singleton, not_or] at hb
    rw [← List.append_assoc, ticksWhere_snoc, ih hb.1, if_neg fun h => hb.2 h.1.symm]
    rfl

theorem ticksWhere_tick {P : List Event → Prop} {a : List Event} (h : P a) (b : List Event) :
    ticksWhere P a + 1 ≤ ticksWhere P (a ++ .resumed :: b) := by
  classical
  have h1 := ticksWhere_append P (a ++ [.resumed]) b
  rw [ticksWhere_snoc, if_pos ⟨rfl, h⟩, List.append_assoc] at h1
  exact h1

theorem ticksWhere_le_ticks (P : List Event → Prop) (a : List Event) : ticksWhere P a ≤ ticks a := by
  classical
  induction a using List.reverseRecOn with
  | nil => exact Nat.le_refl _
  | append_singleton a e ih =>
    rw [ticksWhere_snoc]
    unfold ticks at *
    rw [List.countP_append]
    by_cases he : e = .resumed
    · subst he; simp; split <;> omega
    · rw [if_neg fun h => he h.1]; omega

/-- the last tick of a kind -/
theorem ticksWhere_last {P : List Event → Prop} {a : List Event} (h : ticksWhere P a ≠ 0) :
    ∃ a1 a2, a = a1 ++ .resumed :: a2 ∧ P a1 ∧ ticksWhere P a = ticksWhere P a1 + 1 := by
  classical
  induction a using List.reverseRecOn with
  | nil => exact absurd rfl h
  | append_singleton a e ih =>
    rw [ticksWhere_snoc] at h ⊢
    by_cases he : e = .resumed ∧ P a
    · obtain ⟨rfl, hp⟩ := he
      exact ⟨a, [], rfl, hp, by rw [if_pos ⟨rfl, hp⟩]⟩
    · rw [if_neg he] at h ⊢
      obtain ⟨a1, a2, rfl, h2, h3⟩ := ih h
      exact ⟨a1, a2 ++ [e], by simp, h2, h3⟩

/-- `thread_count` jobs are on threads -/
def AllThreads (C : Cfg) (tr : List Event) : Prop :=
  ∃ l : List Node, l.Nodup ∧ l.length = C.threadCount ∧ ∀ n ∈ l, OnThread tr n

/-- some thread is free, and every task that is not started waits for a job on a thread -/
def Blocked (C : Cfg) (tr : List Event) : Prop :=
  ¬ AllThreads C tr ∧ (∃ y, OnThread tr y) ∧ ∀ x ∈ C.dag.nodes, NotStarted tr x →
    ∃ y, OnThread tr y ∧ WaitsFor C.dag C.resources x y

/-- the number of jobs on threads, summed over the ticks, counts the full and the blocked ones -/
theorem work_ge (tr : List Event) (hn : ∀ n, Event.launch n ∈ tr → n ∈ C.dag.nodes) :
    C.threadCount * ticksWhere (AllThreads C) tr + ticksWhere (Blocked C) tr ≤
      (C.dag.nodes.map (jobTicks tr)).sum := by
  classical
  induction tr using List.reverseRecOn with
  | nil => simp [ticksWhere]
  | append_singleton a e ih =>
    have ih := ih fun n h => hn n (List.mem_append_left _ h)
    have hj : ∀ n, jobTicks (a ++ [e]) n = jobTicks a n + if e = .resumed ∧ OnThread a n then 1 else 0 :=
      fun n => ticksWhere_snoc _ _ _
    have hs : (C.dag.nodes.map (jobTicks (a ++ [e]))).sum = (C.dag.nodes.map (jobTicks a)).sum +
        C.dag.nodes.countP fun n => e = .resumed ∧ OnThread a n := by
      generalize C.dag.nodes = l
      induction l with
      | nil => rfl
      | cons n l ih =>
        simp only [List.map_cons, List.sum_cons, List.countP_cons, ih, hj, decide_eq_true_eq]
        omega
    have hcount : ∀ l : List Node, e = .resumed → l.Nodup → (∀ n ∈ l, OnThread a n) →
        l.length ≤ C.dag.nodes.countP fun n => e = .resumed ∧ OnThread a n := by
      intro l he hl h
      rw [List.countP_eq_length_filter]
      refine (List.subperm_of_subset hl fun n hm => ?_).length_le
      simp only [List.mem_filter, decide_eq_true_eq]
      exact ⟨hn n (List.mem_append_left _ (h n hm).1), he, h n hm⟩
    rw [hs, ticksWhere_snoc, ticksWhere_snoc]
    by_cases he : e = .resumed
    · by_cases hf : AllThreads C a
      · obtain ⟨l, l1, l2, l3⟩ := hf
        have := hcount l he l1 l3
        rw [if_pos ⟨he, ⟨l, l1, l2, l3⟩⟩, if_neg fun h => h.2.1 ⟨l, l1, l2, l3⟩, Nat.mul_add]
        omega
      · rw [if_neg fun h => hf h.2]
        by_cases hb : Blocked C a
        · obtain ⟨y, hy⟩ := hb.2.1
          have := hcount [y] he (by simp) (by simpa using hy)
          rw [if_pos ⟨he, hb⟩]
          simp only [List.length_singleton] at this
          rw [Nat.add_zero]
          omega
        · rw [if_neg fun h => hb h.2]; simp only [Nat.add_zero]; omega
    · rw [if_neg fun h => he h.1, if_neg fun h => he h.1]; simp only [Nat.add_zero]; omega

/-- what a tick does, in terms of jobs on threads -/
def TickUsed' (C : Cfg) (pre mid : List Event) : Prop :=
  pre ≠ [] → TickUsed C pre mid → Busy mid ∨ AllThreads C pre ∨ Blocked C pre

theorem resumed_origin (hwf : C.dag.WF) (ms : List Move) {pre post : List Event}
    (htr : (exec C ms).trace = pre ++ .resumed :: post) (hne : pre ≠ []) :
    ∃ ms1 d, (exec C ms1).trace = pre ∧ (exec C ms1).phase = .susp d := by
  obtain ⟨ms1, pre1, post1, h1, h2, m, ms2, h3, h4⟩ := event_origin hwf ms htr
  have hI := inv_exec hwf ms1
  generalize hev : pre1 ++ Event.resumed :: post1 = evs at h2
  cases h2 with
  | none => simp at hev
  | begin n => rcases pre1 with _ | ⟨_, pre1⟩ <;> simp at hev
  | «end» n => rcases pre1 with _ | ⟨_, pre1⟩ <;> simp at hev
  | ctl _ post p h hpro =>
    subst hev
    generalize hx : pre1 ++ Event.resumed :: post1 ++ post = evs at h
    cases h with
    | prologue _ hp he =>
      exfalso
      obtain ⟨mid, h5, h6, _⟩ := prologue_tail hwf
      have hno : Event.resumed ∉ mid := fun hm => by have := h6 _ hm; simp [proEv] at this
      rw [hI.createdInit hp] at h1 he
      rw [h5, ← hx] at he
      simp only [St.init, List.nil_append, List.append_assoc, List.cons_append] at he h1
      subst h1
      cases pre1 with
      | nil => exact hne rfl
      | cons e l =>
        have := (List.cons.inj he).2
        exact hno (by rw [this]; simp)
    | resumed d hp =>
      refine ⟨ms1, d, ?_, hp⟩
      rcases pre1 with _ | ⟨_, pre1⟩
      · simpa using h1
      · simp at hx
    | _ =>
      exfalso
      have hm : Event.resumed ∈ pre1 ++ Event.resumed :: post1 ++ post := by simp
      rw [hx] at hm
      simp at hm

/-- at the start of a tick: what is not started has no events, what is started and not recorded is
in flight -/
theorem tick_start (hwf : C.dag.WF) (ms : List Move) {pre post : List Event}
    (htr : (exec C ms).trace = pre ++ .resumed :: post) (hne : pre ≠ []) :
    (¬ ∃ n, Relation.TransGen (AfterEdge C.dag) n n) ∧
    ∀ n ∈ C.dag.nodes, (NotStarted pre n → life n pre = []) ∧
      (¬ NotStarted pre n → ¬ Recorded pre n → InFlight pre n) := by
  obtain ⟨ms1, d, rfl, hp⟩ := resumed_origin hwf ms htr hne
  obtain ⟨hI, hT⟩ := both_exec hwf ms1
  have hact : (exec C ms1).phase.active = true := by rw [hp]; rfl
  refine ⟨hI.acyc hact, fun n hn => ?_⟩
  have := hI.part hact n hn
  unfold allNodes at this
  simp only [List.mem_append] at this
  rw [notStarted_iff, not_not]
  rcases this with (hn | hn) | hn
  · obtain ⟨x, hx, rfl⟩ := List.mem_map.1 hn
    cases hla : x.launched
    · have h1 := hT.life_fresh hact hx hla
      rw [h1]; simp
    · have h1 := hT.life_launched hact hx hla
      refine ⟨fun h => absurd ?_ h, fun _ h => ⟨?_, h⟩⟩
      · rw [h1]; cases (exec C ms1).worker x.node <;> simp [workerLife]
      · rw [launch_mem_life, h1]; cases (exec C ms1).worker x.node <;> simp [workerLife]
  · obtain ⟨r, hr, rfl⟩ := List.mem_map.1 hn
    refine ⟨fun h => absurd ?_ h, fun _ h => absurd ⟨r, ?_, rfl⟩ h⟩
    · rw [hT.lifeRec r hr]
      cases r.status <;> simp [recLife] <;> split <;> simp
    · rw [hT.recs]; exact hr
  · have h1 := hT.lifeTp n hn
    rw [h1]; simp

theorem used'_exec (hwf : C.dag.WF) (ms : List Move) : Ticks (TickUsed' C) (exec C ms).trace := by
  classical
  intro pre mid post htr hm hne hu
  by_cases hb : Busy mid
  · exact .inl hb
  right
  obtain ⟨hp1, hp2⟩ := C79_prompt C hwf ms pre mid post htr hm
  obtain ⟨hac, hts⟩ := tick_start hwf ms htr hne
  have hthr : ∀ n, InFlight pre n → OnThread pre n := by
    rintro n ⟨h1, h2⟩
    refine ⟨h1, fun h3 => ?_⟩
    obtain ⟨r, hr, hn⟩ := hp1 n h1 h3
    unfold recsOf at hr
    rw [List.filterMap_append, List.mem_append] at hr
    rcases hr with hr | hr
    · exact h2 ⟨r, hr, hn⟩
    · obtain ⟨er, m, he⟩ := mem_recsOf.1 hr
      simp only [List.mem_cons, reduceCtorEq, false_or] at he
      exact hb ⟨_, he, rfl⟩
  by_cases hf : AllThreads C pre
  · exact .inl hf
  right
  refine ⟨hf, ?_, ?_⟩
  · rcases hp2 hne with h | ⟨n, h⟩
    · exact absurd h hb
    · exact ⟨n, h⟩
  rcases hu with h | ⟨l, l1, l2, l3⟩ | h
  · exact absurd h hb
  · exact absurd ⟨l, l1, l2, fun n hn => hthr n (l3 n hn)⟩ hf
  · intro x hx hxs
    let U := C.dag.nodes.filter fun z => Relation.ReflTransGen (AfterEdge C.dag) x z ∧ NotStarted pre z
    have hU : ∀ z, z ∈ U ↔ z ∈ C.dag.nodes ∧ Relation.ReflTransGen (AfterEdge C.dag) x z ∧
        NotStarted pre z := by
      intro z; simp only [U, List.mem_filter, decide_eq_true_eq]
    have hne' : U ≠ [] := List.ne_nil_of_mem ((hU x).2 ⟨hx, .refl, hxs⟩)
    obtain ⟨z, hz, hmin⟩ := exists_minimal (R := AfterEdge C.dag) hac U.length U (Nat.le_refl _) hne'
    obtain ⟨z1, z2, z3⟩ := (hU z).1 hz
    have hno := h z
    by_cases hpr : ∀ m, AfterEdge C.dag z m → Recorded pre m
    · have : ∃ m, InFlight pre m ∧ ∃ r ∈ C.resources z, r ∈ C.resources m := by
        by_contra hcon
        exact hno ⟨z1, (hts z z1).1 z3, hpr, fun m h1 r h2 h3 => hcon ⟨m, h1, r, h2, h3⟩⟩
      obtain ⟨m, h1, r, h2, h3⟩ := this
      refine ⟨m, hthr m h1, z, z2, .inr ⟨?_, r, h2, h3⟩⟩
      rintro rfl
      have := launch_mem_life.1 h1.1
      rw [(hts z z1).1 z3] at this; cases this
    · rw [not_forall] at hpr
      obtain ⟨m, hpr⟩ := hpr
      rw [Classical.not_imp] at hpr
      have hmn := (hwf.closed _ hpr.1).2
      have hms : ¬ NotStarted pre m := fun h => hmin m ((hU m).2 ⟨hmn, z2.tail hpr.1, h⟩) hpr.1
      exact ⟨m, hthr m ((hts m hmn).2 hms hpr.2), z, z2, .inl hpr.1⟩

theorem Started.pos {evs : List Event} (h : Started evs) : 0 < starts evs := by
  obtain ⟨er, n, h⟩ := h
  exact List.countP_pos_iff.2 ⟨_, h, rfl⟩

/-- the number of ticks before a tick -/
theorem ticks_before (k : Nat) : ∀ pre : List Event, pre.length ≤ k →
    Ticks (PairOK C) (pre ++ [.resumed]) → Ticks (TickUsed' C) (pre ++ [.resumed]) →
    (pre = [] ∨ pre.head? = some .resumed) →
    ticks pre ≤ reports pre + starts pre + ticksWhere (AllThreads C) pre +
      ticksWhere (Blocked C) pre + 2 ∧
    ((∀ pre0 mid0, pre = pre0 ++ Event.resumed :: mid0 → Event.resumed ∉ mid0 →
      TickUsed C pre0 mid0) →
    ticks pre ≤ reports pre + starts pre + ticksWhere (AllThreads C) pre +
      ticksWhere (Blocked C) pre + 1) := by
  induction k with
  | zero =>
    intro pre hl _ _ _
    have : pre = [] := List.length_eq_zero_iff.1 (by omega)
    subst this
    simp [ticks]
  | succ k ih =>
    intro pre hl h1 h2 hh
    rcases hh with rfl | hh
    · simp [ticks]
    obtain ⟨pre', mid', rfl, hm'⟩ := split_last (List.mem_of_head? hh)
    have hh' : pre' = [] ∨ pre'.head? = some .resumed := by
      cases pre' with
      | nil => exact .inl rfl
      | cons a l => right; simpa using hh
    have hpre : (pre' ++ [Event.resumed]) <+: pre' ++ Event.resumed :: mid' ++ [Event.resumed] :=
      ⟨mid' ++ [.resumed], by simp⟩
    have ih := ih pre' (by simp at hl; omega) (h1.prefix hpre) (h2.prefix hpre) hh'
    have hok := h1 pre' mid' [] (by simp) hm'
    have hus := h2 pre' mid' [] (by simp) hm'
    have ht : ticks (pre' ++ .resumed :: mid') = ticks pre' + 1 := by
      have h4 : mid'.countP (fun e => decide (e = Event.resumed)) = 0 :=
        List.countP_eq_zero.2 fun e he h => hm' (by rw [decide_eq_true_eq] at h; exact h ▸ he)
      simp only [ticks, List.countP_append, List.countP_cons, h4]; simp
    have hr : reports (pre' ++ .resumed :: mid') = reports pre' + reports mid' := by
      simp only [reports, List.countP_append, List.countP_cons]; simp [Event.isReport]
    have hs : starts (pre' ++ .resumed :: mid') = starts pre' + starts mid' := by
      simp only [starts, List.countP_append, List.countP_cons]; simp
    have hf := ticksWhere_append (AllThreads C) pre' (.resumed :: mid')
    have hb := ticksWhere_append (Blocked C) pre' (.resumed :: mid')
    have hbusy : Busy mid' → 0 < reports mid' := fun ⟨e, he, hb⟩ => List.countP_pos_iff.2 ⟨e, he, hb⟩
    have hcase : (∀ pre0 mid0, pre' = pre0 ++ Event.resumed :: mid0 → Event.resumed ∉ mid0 →
        TickUsed C pre0 mid0) ∨ Started mid' := by
      by_cases hst : Started mid'
      · exact .inr hst
      · exact .inl fun pre0 mid0 e1 e2 => (hok pre0 mid0 e1 e2).resolve_right hst
    constructor
    · rcases hcase with h | h
      · have := ih.2 h; omega
      · have := h.pos; have := ih.1; omega
    · intro hlast
      have hu := hlast pre' mid' rfl hm'
      rcases hcase with h | h
      · have hi := ih.2 h
        by_cases hne : pre' = []
        · subst hne
          have : ticks ([] : List Event) = 0 := rfl
          omega
        · rcases hus hne hu with h | h | h
          · have := hbusy h; omega
          · have := ticksWhere_tick h mid'; omega
          · have := ticksWhere_tick h mid'; omega
      · have := h.pos; have := hbusy h.busy; have := ih.1; omega

/-- where a job is handed to a thread -/
theorem launch_origin (hwf : C.dag.WF) (ms : List Move) {pre post : List Event} {n : Node}
    (htr : (exec C ms).trace = pre ++ .launch n :: post) :
    n ∈ C.dag.nodes ∧ ∃ a b, pre = a ++ b ∧ Event.resumed ∉ b ∧ life n a = [] := by
  obtain ⟨ms1, pre1, post1, h1, h2, m, ms2, h3, h4⟩ := event_origin hwf ms htr
  obtain ⟨hI, hT⟩ := both_exec hwf ms1
  generalize hev : pre1 ++ Event.launch n :: post1 = evs at h2
  have hx : ∀ {d sl rest evs}, (exec C ms1).phase = .clean d → (exec C ms1).todo = sl :: rest →
      sl.h.launched = false → sl.h.node = n → pre1 ++ Event.launch n :: evs =
        [.beforeRun (exec C ms1).erec n, .launch n] →
      n ∈ C.dag.nodes ∧ ∃ a b, pre = a ++ b ∧ Event.resumed ∉ b ∧ life n a = [] := by
    rintro d sl rest evs hp ht hl rfl hev
    have hin : sl.h ∈ handles (exec C ms1) := by unfold handles; rw [ht]; simp
    refine ⟨hI.inNodes _ (by
      unfold allNodes
      exact List.mem_append_left _ (List.mem_append_left _ (List.mem_map.2 ⟨_, hin, rfl⟩))),
      _, _, h1.symm, ?_, hT.life_fresh (by rw [hp]; rfl) hin hl⟩
    rcases pre1 with _ | ⟨_, _ | ⟨_, pre1⟩⟩ <;> simp at hev ⊢
    rw [hev.1]; simp
  cases h2 with
  | none => simp at hev
  | begin n => rcases pre1 with _ | ⟨_, pre1⟩ <;> simp at hev
  | «end» n => rcases pre1 with _ | ⟨_, pre1⟩ <;> simp at hev
  | ctl _ post p h hpro =>
    subst hev
    generalize hy : pre1 ++ Event.launch n :: post1 ++ post = evs at h
    have hm : Event.launch n ∈ evs := by rw [← hy]; simp
    cases h with
    | prologue _ hp he =>
      exfalso
      have := hpro hp (.launch n) (by simp)
      simp [proEv] at this
    | launch d sl rest hp ht hl h0 =>
      simp only [List.mem_cons, reduceCtorEq, Event.launch.injEq, List.not_mem_nil, or_false,
        false_or] at hm
      subst hm
      exact hx (evs := post1 ++ post) hp ht hl rfl (by rw [← hy]; simp)
    | _ => simp at hm

/-- the ticks at which a job is on its thread include those after it got there -/
theorem ticksWhere_job {P : List Event → Prop} {a b : List Event} {y : Node}
    (hl : Event.launch y ∈ a) (he : ¬ JobEnded (a ++ b) y) :
    ticksWhere P (a ++ b) + jobTicks a y ≤ ticksWhere P a + jobTicks (a ++ b) y := by
  classical
  induction b using List.reverseRecOn with
  | nil => simp
  | append_singleton b e ih =>
    have he' : ¬ JobEnded (a ++ b) y := fun h => he (by
      unfold JobEnded at *; rw [← List.append_assoc]; exact List.mem_append_left _ h)
    have ih := ih he'
    have hon : OnThread (a ++ b) y := ⟨List.mem_append_left _ hl, he'⟩
    unfold jobTicks at *
    rw [← List.append_assoc, ticksWhere_snoc, ticksWhere_snoc]
    split <;> split
    · omega
    · rename_i h1 h2; exact absurd ⟨h1.1, hon⟩ h2
    · omega
    · omega

theorem sum_map_le {l : List Node} {f g : Node → Nat} (h : ∀ n, f n ≤ g n) :
    (l.map f).sum ≤ (l.map g).sum := by
  induction l with
  | nil => exact Nat.le_refl _
  | cons n l ih => simp only [List.map_cons, List.sum_cons]; have := h n; omega

/-- the blocked ticks are covered by a chain of jobs -/
theorem blocked_chain (hwf : C.dag.WF) (ms : List Move) (k : Nat) : ∀ (a rest : List Event)
    (R : Node → Prop), a.length ≤ k → (exec C ms).trace = a ++ rest →
    (∀ a1 a2, a = a1 ++ .resumed :: a2 → Blocked C a1 → ∃ y, OnThread a1 y ∧ R y) →
    ∃ chain : List Node, chain.IsChain (WaitsFor C.dag C.resources) ∧ (∀ y ∈ chain.head?, R y) ∧
      chain.Nodup ∧ (∀ y ∈ chain, Event.launch y ∈ a) ∧
      ticksWhere (Blocked C) a ≤ (chain.map (jobTicks a)).sum := by
  induction k with
  | zero =>
    intro a rest R hl _ _
    have : a = [] := List.length_eq_zero_iff.1 (by omega)
    subst this
    exact ⟨[], by simp [ticksWhere]⟩
  | succ k ih =>
    intro a rest R hl htr hR
    by_cases h0 : ticksWhere (Blocked C) a = 0
    · exact ⟨[], by simp [h0]⟩
    obtain ⟨a1, a2, rfl, hb, hcnt⟩ := ticksWhere_last h0
    obtain ⟨y, hy, hRy⟩ := hR a1 a2 rfl hb
    obtain ⟨b, c, rfl⟩ := List.append_of_mem hy.1
    obtain ⟨hyn, b0, b1, rfl, hq, hlife⟩ := launch_origin hwf ms (pre := b) (n := y)
      (post := c ++ .resumed :: a2 ++ rest) (by rw [htr]; simp)
    have hyns : ∀ p q, b0 = p ++ q → NotStarted p y := by
      rintro p q rfl
      rw [notStarted_iff]
      rw [life_append, List.append_eq_nil_iff] at hlife
      rw [hlife.1]; simp
    obtain ⟨chain, c1, c2, c3, c4, c5⟩ := ih b0 (b1 ++ .launch y :: c ++ .resumed :: a2 ++ rest)
      (WaitsFor C.dag C.resources y) (by simp at hl; omega) (by rw [htr]; simp) (by
        intro p q hpq hbl
        exact hbl.2.2 y hyn (hyns _ _ hpq))
    have hmono : ∀ n, jobTicks b0 n ≤ jobTicks (b0 ++ b1 ++ .launch y :: c ++ .resumed :: a2) n := by
      intro n
      have := ticksWhere_append (OnThread · n) b0 (b1 ++ .launch y :: c ++ .resumed :: a2)
      simpa [jobTicks] using this
    refine ⟨y :: chain, ?_, by simpa using hRy, ?_, ?_, ?_⟩
    · cases chain with
      | nil => simp
      | cons z chain =>
        rw [List.isChain_cons_cons]
        exact ⟨c2 z (by simp), c1⟩
    · refine List.nodup_cons.2 ⟨fun h => ?_, c3⟩
      have := launch_mem_life.1 (c4 y h)
      rw [hlife] at this; cases this
    · intro z hz
      rcases List.mem_cons.1 hz with rfl | hz
      · simp
      · simp [c4 z hz]
    · have e1 : ticksWhere (Blocked C) (b0 ++ b1 ++ [.launch y]) = ticksWhere (Blocked C) b0 := by
        rw [List.append_assoc]
        exact ticksWhere_quiet _ _ (by simp [hq])
      have e2 := ticksWhere_job (P := Blocked C) (a := b0 ++ b1 ++ [.launch y]) (b := c) (y := y)
        (by simp) (by simpa using hy.2)
      have e3 := ticksWhere_tick (P := (OnThread · y)) hy a2
      rw [hcnt, List.map_cons, List.sum_cons]
      have e4 : (chain.map (jobTicks b0)).sum ≤
          (chain.map (jobTicks (b0 ++ b1 ++ .launch y :: c ++ .resumed :: a2))).sum :=
        sum_map_le fun n => hmono n
      have e5 : b0 ++ b1 ++ [Event.launch y] ++ c = b0 ++ b1 ++ .launch y :: c := by simp
      rw [e5] at e2
      unfold jobTicks at *
      omega

/-- **C83**.  The number of ticks of an execution (finished or not).  Let `W` be the work, i.e. the
sum of the lengths of all jobs.  There is a chain of tasks, each of which may have to wait for the
next (see `WaitsFor`), such that the number of ticks is at most
`W / thread_count + (1 - 1 / thread_count) * (the length of the jobs in the chain)` and three ticks
for each task and three more. -/
theorem C83_makespan (C : Cfg) (hwf : C.dag.WF) (ms : List Move) :
    ∃ chain : List Node, chain.IsChain (WaitsFor C.dag C.resources) ∧ chain.Nodup ∧
      (∀ n ∈ chain, n ∈ C.dag.nodes) ∧
      C.threadCount * ticks (exec C ms).trace ≤
        C.threadCount * (3 * C.dag.nodes.length + 3) +
        (C.dag.nodes.map (jobTicks (exec C ms).trace)).sum +
        (C.threadCount - 1) * (chain.map (jobTicks (exec C ms).trace)).sum := by
  have hln : ∀ n, Event.launch n ∈ (exec C ms).trace → n ∈ C.dag.nodes := by
    intro n hn
    obtain ⟨a, b, h⟩ := List.append_of_mem hn
    exact (launch_origin hwf ms h).1
  obtain ⟨chain, c1, _, c3, c4, c5⟩ := blocked_chain hwf ms _ (exec C ms).trace [] (fun _ => True)
    (Nat.le_refl _) (by simp) (by
      intro a1 a2 _ h
      obtain ⟨y, hy⟩ := h.2.1
      exact ⟨y, hy, trivial⟩)
  refine ⟨chain, c1, c3, fun n hn => hln n (c4 n hn), ?_⟩
  have hw := work_ge (C := C) (exec C ms).trace hln
  have hrep := reports_bound (C := C) hwf ms
  have hst := starts_bound (C := C) hwf ms
  have hT1 := (ginv_exec (C := C) hwf ms).1
  have hT2 := used'_exec (C := C) hwf ms
  have key : ticks (exec C ms).trace ≤ 3 * C.dag.nodes.length + 3 +
      ticksWhere (AllThreads C) (exec C ms).trace + ticksWhere (Blocked C) (exec C ms).trace := by
    by_cases hne : Event.resumed ∈ (exec C ms).trace
    · have hhead : (exec C ms).trace.head? = some .resumed := by
        obtain ⟨mid, h1, _⟩ := prologue_tail (C := C) hwf
        rcases (tinv_exec hwf ms).pro with ⟨_, h⟩ | ⟨rest, h, _⟩ | ⟨_, _, ⟨more, h⟩⟩
        · rw [h] at hne; cases hne
        · rw [h, h1]; rfl
        · rw [h1] at h
          cases ht : (exec C ms).trace with
          | nil => rw [ht] at hne; cases hne
          | cons e l => rw [ht] at h; rw [(List.cons.inj h).1]; rfl
      obtain ⟨pre, mid, h1, h2⟩ := split_last hne
      have hpre : (pre ++ [Event.resumed]) <+: (exec C ms).trace := ⟨mid, by rw [h1]; simp⟩
      have := (ticks_before (C := C) pre.length pre (Nat.le_refl _) (hT1.prefix hpre) (hT2.prefix hpre) (by
        rw [h1] at hhead
        cases pre with
        | nil => exact .inl rfl
        | cons a l => right; simpa using hhead)).1
      have e1 := ticksWhere_append (AllThreads C) pre (.resumed :: mid)
      have e2 := ticksWhere_append (Blocked C) pre (.resumed :: mid)
      have e3 : reports pre ≤ reports (pre ++ .resumed :: mid) := by
        unfold reports; rw [List.countP_append]; omega
      have e4 : starts pre ≤ starts (pre ++ .resumed :: mid) := by
        unfold starts; rw [List.countP_append]; omega
      have h0 : mid.countP (fun e => decide (e = Event.resumed)) = 0 :=
        List.countP_eq_zero.2 fun e he h => h2 (by rw [decide_eq_true_eq] at h; exact h ▸ he)
      have e5 : ticks (pre ++ .resumed :: mid) = ticks pre + 1 := by
        simp only [ticks, List.countP_append, List.countP_cons, h0]; simp
      rw [h1] at hrep hst ⊢
      omega
    · have : ticks (exec C ms).trace = 0 :=
        List.countP_eq_zero.2 fun e he h => hne (by rw [decide_eq_true_eq] at h; exact h ▸ he)
      omega
  generalize ticks (exec C ms).trace = T at *
  generalize ticksWhere (AllThreads C) (exec C ms).trace = F at *
  generalize ticksWhere (Blocked C) (exec C ms).trace = B at *
  generalize (C.dag.nodes.map (jobTicks (exec C ms).trace)).sum = W at *
  generalize (chain.map (jobTicks (exec C ms).trace)).sum = L at *
  generalize 3 * C.dag.nodes.length + 3 = N at *
  generalize C.threadCount = t at *
  cases t with
  | zero => simp
  | succ t =>
    have h1 := Nat.mul_le_mul_left (t + 1) key
    have h2 := Nat.mul_le_mul_left t c5
    simp only [Nat.add_sub_cancel]
    rw [Nat.mul_add, Nat.mul_add] at h1
    have h3 : (t + 1) * B = t * B + B := by rw [Nat.add_mul, Nat.one_mul]
    omega

/-! ## The other direction -/

/-- who is on a thread at the start of a tick -/
theorem onThread_handle (hwf : C.dag.WF) (ms : List Move) {d : Bool}
    (hp : (exec C ms).phase = .susp d) {y : Node} (hy : OnThread (exec C ms).trace y) :
    ∃ h ∈ handles (exec C ms), h.launched = true ∧ h.node = y := by
  obtain ⟨hI, hT⟩ := both_exec hwf ms
  have hact : (exec C ms).phase.active = true := by rw [hp]; rfl
  obtain ⟨hy1, hy2⟩ := hy
  obtain ⟨a, b, hab⟩ := List.append_of_mem hy1
  have hin := hI.part hact y (launch_origin hwf ms hab).1
  rw [launch_mem_life] at hy1
  rw [end_mem_life] at hy2
  unfold allNodes at hin
  simp only [List.mem_append] at hin
  rcases hin with (hn | hn) | hn
  · obtain ⟨x, hx, rfl⟩ := List.mem_map.1 hn
    cases hla : x.launched
    · rw [hT.life_fresh hact hx hla] at hy1; cases hy1
    · exact ⟨x, hx, hla, rfl⟩
  · obtain ⟨r, hr, rfl⟩ := List.mem_map.1 hn
    exfalso
    rw [hT.lifeRec r hr] at hy1 hy2
    cases hst : r.status <;> rw [hst] at hy1 hy2 <;>
      simp only [recLife] at hy1 hy2 <;> (try split at hy1) <;> simp_all
  · rw [hT.lifeTp y hn] at hy1; cases hy1

/-- a count over the tasks, summed over the ticks -/
theorem sum_jobTicks_le {tr : List Event} {l : List Node} {k : Nat}
    (h : ∀ a b, tr = a ++ .resumed :: b → ∀ l' : List Node, l'.Sublist l → (∀ n ∈ l', OnThread a n) →
      l'.length ≤ k) : (l.map (jobTicks tr)).sum ≤ k * ticks tr := by
  classical
  induction tr using List.reverseRecOn with
  | nil =>
    have : ∀ n, jobTicks [] n = 0 := fun n => rfl
    rw [List.map_congr_left (g := fun _ => 0) fun n _ => this n]
    simp
  | append_singleton a e ih =>
    have ih := ih fun b c hbc l' => h b (c ++ [e]) (by rw [hbc]; simp) l'
    have hj : ∀ n, jobTicks (a ++ [e]) n = jobTicks a n + if e = .resumed ∧ OnThread a n then 1 else 0 :=
      fun n => ticksWhere_snoc _ _ _
    have hs : ∀ l : List Node, (l.map (jobTicks (a ++ [e]))).sum = (l.map (jobTicks a)).sum +
        l.countP fun n => e = .resumed ∧ OnThread a n := by
      intro l
      induction l with
      | nil => rfl
      | cons n l ih =>
        simp only [List.map_cons, List.sum_cons, List.countP_cons, ih, hj, decide_eq_true_eq]
        omega
    have ht : ticks (a ++ [e]) = ticks a + if e = .resumed then 1 else 0 := by
      simp [ticks, List.countP_append, List.countP_cons]
    rw [hs, ht]
    by_cases he : e = .resumed
    · rw [if_pos he, Nat.mul_add, Nat.mul_one]
      refine Nat.add_le_add ih ?_
      rw [List.countP_eq_length_filter]
      refine h a [] (by rw [he]) _ List.filter_sublist fun n hn => ?_
      simp only [List.mem_filter, decide_eq_true_eq] at hn
      exact hn.2.2
    · have : l.countP (fun n => e = .resumed ∧ OnThread a n) = 0 :=
        List.countP_eq_zero.2 fun n _ hn => by
          rw [decide_eq_true_eq] at hn; exact he hn.1
      rw [this, if_neg he]
      exact ih

/-- **C83**, the other direction: there are at least `W / thread_count` ticks, where `W` is the sum
of the lengths of all jobs, and at least as many as the jobs of tasks ordered one after the other
take together. -/
theorem C83_lower_bound (C : Cfg) (hwf : C.dag.WF) (ms : List Move) :
    (C.dag.nodes.map (jobTicks (exec C ms).trace)).sum ≤ C.threadCount * ticks (exec C ms).trace ∧
    ∀ chain : List Node, chain.IsChain (Relation.TransGen (AfterEdge C.dag)) →
      (chain.map (jobTicks (exec C ms).trace)).sum ≤ ticks (exec C ms).trace := by
  constructor
  · refine sum_jobTicks_le fun a b hab l hl hon => ?_
    by_cases hne : a = []
    · subst hne
      cases l with
      | nil => simp
      | cons n l => have := (hon n (by simp)).1; cases this
    obtain ⟨ms1, d, rfl, hp⟩ := resumed_origin hwf ms hab hne
    obtain ⟨hI, hT⟩ := both_exec hwf ms1
    have hsub : l ⊆ (handles (exec C ms1)).map Handle.node := by
      intro n hn
      obtain ⟨h, h1, _, h3⟩ := onThread_handle hwf ms1 hp (hon n hn)
      exact List.mem_map.2 ⟨h, h1, h3⟩
    have hlen := (List.subperm_of_subset (hwf.nodup.sublist hl) hsub).length_le
    rw [List.length_map] at hlen
    by_cases h0 : C.threadCount = 0
    · cases l with
      | nil => simp
      | cons n l =>
        exfalso
        obtain ⟨h, h1, h2, h3⟩ := onThread_handle hwf ms1 hp (hon n (by simp))
        exact (hI.launched h h1 h2).2.1 (hI.seq h0 _)
    · exact Nat.le_trans hlen (hI.cap h0)
  · intro chain hc
    have := sum_jobTicks_le (tr := (exec C ms).trace) (l := chain) (k := 1) ?_
    · rwa [Nat.one_mul] at this
    intro a b hab l hl hon
    by_cases hne : a = []
    · subst hne
      cases l with
      | nil => simp
      | cons n l => have := (hon n (by simp)).1; cases this
    obtain ⟨ms1, d, rfl, hp⟩ := resumed_origin hwf ms hab hne
    obtain ⟨hI, hT⟩ := both_exec hwf ms1
    have hpw : l.Pairwise (Relation.TransGen (AfterEdge C.dag)) :=
      (List.isChain_iff_pairwise.1 hc).sublist hl
    cases l with
    | nil => simp
    | cons x l =>
      cases l with
      | nil => simp
      | cons y l =>
        exfalso
        have hxy := (List.pairwise_cons.1 hpw).1 y (by simp)
        obtain ⟨h, h1, h2, rfl⟩ := onThread_handle hwf ms1 hp (hon x (by simp))
        obtain ⟨h', h1', h2', rfl⟩ := onThread_handle hwf ms1 hp (hon y (by simp))
        have hd : (exec C ms1).flags.done h'.node = true := by
          have : ∀ z, Relation.TransGen (AfterEdge C.dag) h.node z →
              (exec C ms1).flags.done z = true := by
            intro z hz
            induction hz with
            | single hz => exact hI.preds h h1 _ hz
            | tail _ hz ih =>
              rename_i b c _
              obtain ⟨r, hr, rfl⟩ := List.mem_map.1 ((hI.doneIff b).1 ih)
              exact (hI.recs r hr).preds _ hz
          exact this _ hxy
        rw [hI.doneIff] at hd
        have hnd := hI.nodup
        unfold allNodes at hnd
        rw [List.nodup_append, List.nodup_append] at hnd
        exact hnd.1.2.2 _ (List.mem_map.2 ⟨h', h1', rfl⟩) _ hd rfl

/-- **C83**, at most twice as long as necessary.  If no two tasks have a resource in common: let `T`
be a time within which the jobs could be done on `thread_count` threads, i.e. `thread_count * T` is
at least the length of all jobs, and `T` is at least the length of any jobs of tasks ordered one
after the other.  Then the execution takes at most `2 * T` ticks, three ticks for each task and
three more. -/
theorem C83_twice_optimal (C : Cfg) (hwf : C.dag.WF) (h0 : C.threadCount ≠ 0)
    (hres : ∀ a b, a ≠ b → ∀ r ∈ C.resources a, r ∉ C.resources b) (ms : List Move) (T : Nat)
    (hT1 : (C.dag.nodes.map (jobTicks (exec C ms).trace)).sum ≤ C.threadCount * T)
    (hT2 : ∀ chain : List Node, chain.IsChain (Relation.TransGen (AfterEdge C.dag)) →
      (chain.map (jobTicks (exec C ms).trace)).sum ≤ T) :
    ticks (exec C ms).trace ≤ 3 * C.dag.nodes.length + 3 + 2 * T := by
  obtain ⟨chain, c1, _, _, c4⟩ := C83_makespan C hwf ms
  have := hT2 chain (c1.imp (by
    rintro x y ⟨z, hz, h | ⟨h, r, h1, h2⟩⟩
    · exact Relation.TransGen.tail' hz h
    · exact absurd h2 (hres z y h r h1)))
  generalize ticks (exec C ms).trace = K at *
  generalize (C.dag.nodes.map (jobTicks (exec C ms).trace)).sum = W at *
  generalize (chain.map (jobTicks (exec C ms).trace)).sum = L at *
  generalize 3 * C.dag.nodes.length + 3 = N at *
  generalize C.threadCount = t at *
  refine Nat.le_of_mul_le_mul_left (c := t) ?_ (Nat.pos_of_ne_zero h0)
  have h1 : (t - 1) * L ≤ t * T := Nat.mul_le_mul (by omega) this
  rw [Nat.mul_add, Nat.mul_left_comm]
  omega

theorem jobTicks_eq (tr : List Event) (n : Node) : jobTicks tr n =
    (List.range tr.length).countP fun i =>
      tr[i]? = some .resumed ∧ .launch n ∈ tr.take i ∧ .jobEnd n ∉ tr.take i := by
  classical
  unfold jobTicks ticksWhere OnThread JobEnded
  exact List.countP_congr fun i _ => by simp

/-- two threads, jobs 1 and 2 share a resource and take long, 3 is short -/
def Ex.longMoves : List Move :=
  List.replicate 60 .ctl ++ [.begin 1, .begin 3, .finish 3] ++ List.replicate 120 .ctl ++ [.finish 1] ++
  List.replicate 20 .ctl ++ [.begin 2] ++ List.replicate 160 .ctl ++ [.finish 2] ++
  List.replicate 5 .ctl

/-- in a finished execution the bound does not hold without the chain of 2 and 1, nor with a shorter
one -/
example :
    (exec (Ex.par 2) Ex.longMoves).phase = .finished ∧
    WaitsFor (Ex.par 2).dag (Ex.par 2).resources 2 1 ∧
    (let tr := (exec (Ex.par 2) Ex.longMoves).trace
     ticks tr = 80 ∧ jobTicks tr 1 = 32 ∧ jobTicks tr 2 = 43 ∧ jobTicks tr 3 = 8 ∧
     2 * (3 * 3 + 3) + (8 + 43 + 32) + (2 - 1) * 43 < 2 * 80 ∧
     2 * 80 ≤ 2 * (3 * 3 + 3) + (8 + 43 + 32) + (2 - 1) * (43 + 32)) := by
  refine ⟨by decide +kernel, ⟨2, .refl, .inr ⟨by decide, 7, by decide, by decide⟩⟩, ?_⟩
  simp only [jobTicks_eq]
  decide +kernel

/-- three jobs on two threads without resources -/
def Ex.free2 : Cfg := { Ex.par 2 with resources := fun _ => [] }

def Ex.freeMoves : List Move :=
  List.replicate 20 .ctl ++ [.begin 1, .begin 2, .finish 2] ++
  List.replicate 20 .ctl ++ [.begin 3] ++ List.replicate 20 .ctl ++ [.finish 1, .finish 3] ++
  List.replicate 7 .ctl

/-- `T = 9` ticks suffice for the jobs of lengths 9, 1 and 6; the execution takes 13 -/
example :
    (exec Ex.free2 Ex.freeMoves).phase = .finished ∧
    (∀ a b, a ≠ b → ∀ r ∈ Ex.free2.resources a, r ∉ Ex.free2.resources b) ∧
    (let tr := (exec Ex.free2 Ex.freeMoves).trace
     ticks tr = 13 ∧ (Ex.free2.dag.nodes.map (jobTicks tr)).sum ≤ Ex.free2.threadCount * 9 ∧
     ∀ chain : List Node, chain.IsChain (Relation.TransGen (AfterEdge Ex.free2.dag)) →
      (chain.map (jobTicks tr)).sum ≤ 9) := by
  have h0 : (exec Ex.free2 Ex.freeMoves).phase = .finished ∧
      (let tr := (exec Ex.free2 Ex.freeMoves).trace
       ticks tr = 13 ∧ jobTicks tr 3 = 6 ∧ jobTicks tr 2 = 1 ∧ jobTicks tr 1 = 9) := by
    simp only [jobTicks_eq]
    decide +kernel
  obtain ⟨h1, h2, h3, h4, h5⟩ := h0
  refine ⟨h1, fun a b _ r hr => (by cases hr), h2, ?_, ?_⟩
  · show ([3, 2, 1].map _).sum ≤ 2 * 9
    simp only [List.map_cons, List.map_nil, List.sum_cons, List.sum_nil]
    omega
  · have hne : ∀ a b, ¬ Relation.TransGen (AfterEdge Ex.free2.dag) a b := by
      intro a b h
      obtain ⟨c, h, _⟩ := Relation.TransGen.head'_iff.1 h
      cases h
    intro chain hc
    match chain, hc with
    | [], _ => simp
    | [n], _ =>
      simp only [List.map_cons, List.map_nil, List.sum_cons, List.sum_nil]
      by_cases hn : Event.launch n ∈ (exec Ex.free2 Ex.freeMoves).trace
      · obtain ⟨a, b, h⟩ := List.append_of_mem hn
        have : n ∈ [3, 2, 1] := (launch_origin (C := Ex.free2) (Ex.par_wf 2) Ex.freeMoves h).1
        simp only [List.mem_cons, List.not_mem_nil, or_false] at this
        rcases this with rfl | rfl | rfl
        · rw [h3]; decide
        · rw [h4]; decide
        · rw [h5]; decide
      · rw [jobTicks_eq, List.countP_eq_zero.2]
        · omega
        · intro i _ h
          rw [decide_eq_true_eq] at h
          exact hn (List.mem_of_mem_take h.2.1)
    | a :: b :: l, hc => exact absurd (List.isChain_cons_cons.1 hc).1 (hne a b)

end Joque
