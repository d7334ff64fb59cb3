import Verif.Props.Throw
import Verif.Props.Exec6

/-! # `on_tick` -/

namespace Joque

variable {C : Cfg}

/-! ## C65 -/

/-- `before_run` has not been called for `n`. -/
def NotStarted (tr : List Event) (n : Node) : Prop := ∀ er, Event.beforeRun er n ∉ tr

/-- What a complete tick looks like: `pre` is the history before the execution was resumed, `mid`
what happened until it was suspended again.  `on_tick` is called iff some task is not started by
the end of the tick; then once, before any other callback but those of the prologue. -/
def TickOK (C : Cfg) (pre mid : List Event) : Prop :=
  ((∃ er, Event.onTick er ∈ mid) ↔ ∃ n ∈ C.dag.nodes, NotStarted (pre ++ .resumed :: mid) n) ∧
  ∀ x er y, mid = x ++ Event.onTick er :: y →
    (∀ e ∈ x, e.isCallback = true →
      (∃ n, e = .nodeEnque n) ∨ (∃ n i l, e = .jobInval n i l) ∨ ∃ n m, e = .depInval n m) ∧
    ∀ er', Event.onTick er' ∉ y

/-- `P` holds of every complete tick. -/
def Ticks (P : List Event → List Event → Prop) (tr : List Event) : Prop :=
  ∀ pre mid post, tr = pre ++ Event.resumed :: (mid ++ Event.resumed :: post) →
    Event.resumed ∉ mid → P pre mid

theorem Ticks.prefix {P : List Event → List Event → Prop} {tr tr' : List Event} (h : Ticks P tr) (hp : tr' <+: tr) : Ticks P tr' := by
  rintro pre mid post rfl hm
  obtain ⟨more, rfl⟩ := hp
  exact h pre mid (post ++ more) (by simp) hm

theorem Ticks.append {P : List Event → List Event → Prop} {tr evs : List Event} (h : Ticks P tr) (he : Event.resumed ∉ evs) :
    Ticks P (tr ++ evs) := by
  intro pre mid post heq hm
  have heq' : tr ++ evs = (pre ++ Event.resumed :: mid) ++ Event.resumed :: post := by
    rw [heq]; simp
  rcases List.append_eq_append_iff.1 heq' with ⟨as, h1, h2⟩ | ⟨bs, h1, h2⟩
  · exact absurd (by rw [h2]; simp) he
  · cases bs with
    | nil =>
      rw [List.nil_append] at h2
      exact absurd (by rw [← h2]; simp) he
    | cons b bs =>
      obtain ⟨rfl, h2⟩ := List.cons.inj h2
      exact h pre mid bs (by rw [h1]; simp) hm

theorem last_resumed {pre mid pre' mid' : List Event}
    (h : pre ++ Event.resumed :: mid = pre' ++ Event.resumed :: mid')
    (hm : Event.resumed ∉ mid) (hm' : Event.resumed ∉ mid') : pre = pre' ∧ mid = mid' := by
  rcases List.append_eq_append_iff.1 h with ⟨as, h1, h2⟩ | ⟨as, h1, h2⟩ <;> cases as with
  | nil =>
    rw [List.nil_append] at h2
    rw [List.append_nil] at h1
    first
    | exact ⟨h1.symm, (List.cons.inj h2).2⟩
    | exact ⟨h1, ((List.cons.inj h2).2).symm⟩
  | cons b as =>
    have h3 := (List.cons.inj h2).2
    have h4 : ∀ l, Event.resumed ∈ as.append (Event.resumed :: l) := fun l =>
      List.mem_append_right as List.mem_cons_self
    first
    | exact absurd (by rw [h3]; exact h4 _) hm
    | exact absurd (by rw [h3]; exact h4 _) hm'

theorem Ticks.resume {P : List Event → List Event → Prop} {pre mid : List Event} (h : Ticks P (pre ++ Event.resumed :: mid))
    (hm : Event.resumed ∉ mid) (hok : P pre mid) :
    Ticks P (pre ++ Event.resumed :: mid ++ [.resumed]) := by
  intro pre' mid' post heq hm'
  rcases List.eq_nil_or_concat post with rfl | ⟨post', x, rfl⟩
  · have heq' : (pre ++ Event.resumed :: mid) ++ [Event.resumed] =
        (pre' ++ Event.resumed :: mid') ++ [Event.resumed] := by rw [heq]; simp
    obtain ⟨rfl, rfl⟩ := last_resumed (List.append_cancel_right heq') hm hm'
    exact hok
  · have heq' : (pre ++ Event.resumed :: mid) ++ [Event.resumed] =
        (pre' ++ Event.resumed :: (mid' ++ Event.resumed :: post')) ++ [x] := by rw [heq]; simp
    exact h pre' mid' post' (List.append_inj' heq' rfl).1 hm'

/-- events possible before `on_tick` -/
def early : Event → Bool
  | .nodeEnque _ | .jobInval _ _ _ | .depInval _ _ | .jobBegin _ false | .jobEnd _ => true
  | _ => false

/-- what is known of the tick under way -/
def CurOK (C : Cfg) (s : St) (mid : List Event) : Prop :=
  match s.phase with
  | .loopTop => ∀ e ∈ mid, early e = true
  | .clean false | .pick =>
    ∃ x er y, mid = x ++ Event.onTick er :: y ∧ (∀ e ∈ x, early e = true) ∧
      ∀ er', Event.onTick er' ∉ y
  | .susp false =>
    (∃ x er y, mid = x ++ Event.onTick er :: y ∧ (∀ e ∈ x, early e = true) ∧
      ∀ er', Event.onTick er' ∉ y) ∧
    ∃ n ∈ C.dag.nodes, NotStarted s.trace n
  | .drainTop | .clean true => ∀ er, Event.onTick er ∉ mid
  | .susp true => (∀ er, Event.onTick er ∉ mid) ∧ ∀ n ∈ C.dag.nodes, ¬ NotStarted s.trace n
  | _ => True

def TickInv (C : Cfg) (s : St) : Prop :=
  Ticks (TickOK C) s.trace ∧ (s.phase.active = true →
    ∃ pre mid, s.trace = pre ++ Event.resumed :: mid ∧ Event.resumed ∉ mid ∧ CurOK C s mid)

theorem notStarted_iff {tr : List Event} {n : Node} : NotStarted tr n ↔ Tag.before ∉ life n tr := by
  constructor
  · intro h hm
    obtain ⟨e, he, ht⟩ := List.mem_filterMap.1 hm
    unfold tagOf at ht
    split at ht <;> (try split at ht) <;> simp at ht
    rename_i er m hm; subst hm; exact h er he
  · intro h er he
    exact h (List.mem_filterMap.2 ⟨_, he, by simp [tagOf]⟩)

theorem prologue_tail (hwf : C.dag.WF) : ∃ mid, (prologue C St.init).trace = .resumed :: mid ∧
    (∀ e ∈ mid, proEv e = true) ∧
    ((prologue C St.init).phase.active = true → ∀ c, Event.detectedCycle c ∉ mid) := by
  rcases prologue_spec hwf with ⟨_, c, _, hp, h⟩ | ⟨_, _, hp, evs, h, h4, _⟩ |
      ⟨_, pre, n, post, _, _, _, h, _⟩
  · refine ⟨C.dag.nodes.map Event.nodeEnque ++ [.detectedCycle c], by rw [h]; rfl, ?_,
      by rw [hp]; simp [Phase.active]⟩
    intro e he; simp only [List.mem_append, List.mem_map, List.mem_singleton] at he
    rcases he with ⟨a, _, rfl⟩ | rfl <;> simp [proEv]
  · refine ⟨C.dag.nodes.map Event.nodeEnque ++ (_ ++ evs), by rw [h]; rfl, ?_, ?_⟩
    · intro e he; simp only [List.mem_append, List.mem_map] at he
      rcases he with ⟨a, _, rfl⟩ | ⟨a, _, rfl⟩ | he
      · rfl
      · rfl
      · obtain ⟨n, m, rfl, _⟩ := h4 e he; rfl
    · intro _ c he; simp only [List.mem_append, List.mem_map] at he
      rcases he with ⟨a, _, h⟩ | ⟨a, _, h⟩ | he
      · cases h
      · cases h
      · obtain ⟨n, m, h, _⟩ := h4 _ he; cases h
  · refine ⟨C.dag.nodes.map Event.nodeEnque ++ pre.map _, by rw [h]; rfl, ?_, ?_⟩
    · intro e he; simp only [List.mem_append, List.mem_map] at he
      rcases he with ⟨a, _, rfl⟩ | ⟨a, _, rfl⟩ <;> simp [proEv]
    · intro _ c he; simp only [List.mem_append, List.mem_map] at he
      rcases he with ⟨a, _, h⟩ | ⟨a, _, h⟩ <;> cases h

theorem early_cases {e : Event} (h : early e = true) (hc : e.isCallback = true) :
    (∃ n, e = .nodeEnque n) ∨ (∃ n i l, e = .jobInval n i l) ∨ ∃ n m, e = .depInval n m := by
  cases e with
  | nodeEnque n => exact .inl ⟨n, rfl⟩
  | jobInval n i l => exact .inr (.inl ⟨n, i, l, rfl⟩)
  | depInval n m => exact .inr (.inr ⟨n, m, rfl⟩)
  | jobBegin | jobEnd => simp [Event.isCallback] at hc
  | _ => simp [early] at h

theorem NotStarted.append {tr evs : List Event} {n : Node} (h : NotStarted tr n)
    (he : NotStarted evs n) : NotStarted (tr ++ evs) n := fun er hm =>
  (List.mem_append.1 hm).elim (h er) (he er)

theorem tick_ctl (hwf : C.dag.WF) {s : St} (hI : Inv C s) (hT : TInv C s) (h : TickInv C s)
    (ok : Bool) : TickInv C (ctlStep C s ok) := by
  obtain ⟨hA, hB⟩ := h
  have hI' : Inv C (ctlStep C s ok) := by
    cases ok
    · exact inv_step hwf hI .ctlFail
    · exact inv_step hwf hI .ctl
  cases hp : s.phase with
  | created =>
    have hs := hI.createdInit hp
    have he : ctlStep C s ok = prologue C St.init := by
      unfold ctlStep; rw [hp]; simp only; rw [hs]
    obtain ⟨mid, h1, h2, h3⟩ := prologue_tail hwf
    have hno : Event.resumed ∉ mid := fun hm => by have := h2 _ hm; simp [proEv] at this
    rw [he]
    refine ⟨?_, fun hact => ⟨[], mid, h1, hno, ?_⟩⟩
    · intro pre mid' post heq hm'
      rw [h1] at heq
      exfalso
      cases pre with
      | nil =>
        have := (List.cons.inj heq).2
        exact hno (by rw [this]; simp)
      | cons e pre =>
        have := (List.cons.inj heq).2
        exact hno (by rw [this]; simp)
    · have hph : (prologue C St.init).phase = .loopTop := by
        rcases prologue_spec hwf with ⟨_, c, _, hp, h⟩ | ⟨_, _, hp, _⟩ |
            ⟨_, pre, n, post, _, _, _, h, ⟨_, hp⟩ | ⟨_, w, _, hp⟩⟩
        · rw [hp] at hact; cases hact
        · exact hp
        · rw [hp] at hact; cases hact
        · rw [hp] at hact; cases hact
      unfold CurOK
      rw [hph]
      intro e he
      have := h2 e he
      cases e <;> first | rfl | (simp [proEv] at this; done) | exact absurd he (h3 hact _)
  | loopTop =>
    obtain ⟨pre, mid, h1, h2, h3⟩ := hB (by rw [hp]; rfl)
    unfold CurOK at h3
    rw [hp] at h3
    unfold ctlStep
    rw [hp]
    dsimp only
    split
    · refine ⟨hA, fun _ => ⟨pre, mid, h1, h2, ?_⟩⟩
      show ∀ er, Event.onTick er ∉ mid
      intro er hm
      have := h3 _ hm; simp [early] at this
    · refine ⟨hA.append (by simp), fun _ => ⟨pre, mid ++ [.onTick s.erec], ?_, ?_, ?_⟩⟩
      · show s.trace ++ _ = _; rw [h1]; simp
      · simpa using h2
      · exact ⟨mid, s.erec, [], rfl, h3, by simp⟩
  | clean d =>
    obtain ⟨pre, mid, h1, h2, h3⟩ := hB (by rw [hp]; rfl)
    have he : ctlStep C s ok = cleanStep C s ok d := by unfold ctlStep; rw [hp]
    obtain ⟨evs, ht, hem⟩ := ctl_events C s ok
    have hev : Event.resumed ∉ evs ∧ ∀ er, Event.onTick er ∉ evs := by
      generalize (ctlStep C s ok).phase = p at hem
      cases hem with
      | prologue _ h => rw [hp] at h; cases h
      | tick h => rw [hp] at h; cases h
      | resumed _ h => rw [hp] at h; cases h
      | afterExecution h => rw [hp] at h; cases h
      | _ => simp
    refine ⟨by rw [ht]; exact hA.append hev.1, fun hact => ⟨pre, mid ++ evs, ?_, ?_, ?_⟩⟩
    · rw [ht, h1]; simp
    · simp [h2, hev.1]
    · -- the resulting phase
      have hcases : (ctlStep C s ok).phase = .clean d ∨
          (s.todo = [] ∧ (ctlStep C s ok).phase = (if d then .susp true else .pick) ∧
            (ctlStep C s ok).trace = s.trace) := by
        rcases phase_cleanStep (C := C) (ok := ok) hp with h | h | h | ⟨h, _⟩ | ⟨h, _⟩
        · left; rw [he]; exact h
        · right
          have hsus : s.todo = [] := by
            by_contra hne
            obtain ⟨sl, rest, hsl⟩ := List.exists_cons_of_ne_nil hne
            generalize hph : (ctlStep C s ok).phase = p at hem
            rw [he] at hph
            rw [hph] at h
            have hnn : p ≠ .clean d := by rw [h]; cases d <;> simp
            unfold cleanStep at hph
            rw [hsl] at hph
            dsimp only at hph
            split at hph
            · rcases phase_startRun (C := C) (s := s) (ok := ok) (ref := sl.ref) (h := sl.h)
                (rest := rest) with q | q | ⟨q, _⟩ | ⟨q, _⟩
              · rw [q, hp] at hph; exact hnn hph.symm
              · rw [q] at hph; rw [← hph] at h; cases d <;> simp at h
              · rw [q] at hph; rw [← hph] at h; cases d <;> simp at h
              · rw [q] at hph; rw [← hph] at h; cases d <;> simp at h
            · split at hph
              · rcases phase_collect (C := C) (s := s) (ref := sl.ref) (h := sl.h)
                  (rest := rest) with q | ⟨q, _⟩
                · rw [q, hp] at hph; exact hnn hph.symm
                · rw [q] at hph; rw [← hph] at h; cases d <;> simp at h
              · replace hph : s.phase = p := hph
                rw [hp] at hph
                exact hnn hph.symm
          refine ⟨hsus, by rw [he]; exact h, ?_⟩
          rw [he]; unfold cleanStep; rw [hsus]
        · rw [he, h] at hact; cases hact
        · rw [he, h] at hact; cases hact
        · rw [he, h] at hact; cases hact
      unfold CurOK at h3 ⊢
      rw [hp] at h3
      rcases hcases with h | ⟨htodo, h, htr⟩
      · rw [h]
        cases d with
        | false =>
          obtain ⟨x, er, y, q1, q2, q4⟩ := h3
          refine ⟨x, er, y ++ evs, by rw [q1]; simp, q2, fun er' hm => ?_⟩
          rcases List.mem_append.1 hm with hm | hm
          · exact q4 er' hm
          · exact hev.2 er' hm
        | true =>
          intro er hm
          rcases List.mem_append.1 hm with hm | hm
          · exact h3 er hm
          · exact hev.2 er hm
      · have hnil : evs = [] := by
          rw [htr] at ht; exact List.self_eq_append_right.1 ht
        subst hnil
        rw [h, List.append_nil]
        cases d with
        | false => exact h3
        | true =>
          refine ⟨h3, fun n hn => ?_⟩
          rw [htr, notStarted_iff, not_not]
          have hin := hI.part (by rw [hp]; rfl) n hn
          unfold allNodes at hin
          simp only [List.mem_append] at hin
          rcases hin with (hin | hin) | hin
          · obtain ⟨x, hx, rfl⟩ := List.mem_map.1 hin
            have hl : x.launched = true := by
              simp only [handles, htodo, List.map_nil, List.append_nil] at hx
              exact hI.keptLaunched x hx
            rw [hT.life_launched (by rw [hp]; rfl) hx hl]
            cases s.worker x.node <;> simp [workerLife]
          · obtain ⟨r, hr, rfl⟩ := List.mem_map.1 hin
            rw [hT.lifeRec r hr]
            cases r.status <;> simp [recLife] <;> split <;> simp
          · rw [hI.drain (by rw [hp]; rfl)] at hin; cases hin
  | pick =>
    obtain ⟨pre, mid, h1, h2, h3⟩ := hB (by rw [hp]; rfl)
    have he : ctlStep C s ok = pickStep C s := by unfold ctlStep; rw [hp]
    have htr : (pickStep C s).trace = s.trace := by
      unfold pickStep
      split
      · rfl
      · split
        · rfl
        · rfl
        · split <;> rfl
    rw [he]
    refine ⟨by rw [htr]; exact hA, fun hact => ⟨pre, mid, by rw [htr]; exact h1, h2, ?_⟩⟩
    have hph : (pickStep C s).phase = .susp false := by
      rcases phase_pickStep (C := C) (s := s) with h | h | h
      · exact h
      · rw [h] at hact; cases hact
      · rw [h] at hact; cases hact
    unfold CurOK at h3 ⊢
    rw [hp] at h3
    rw [hph]
    refine ⟨h3, ?_⟩
    obtain ⟨n, hn⟩ := List.exists_mem_of_ne_nil _ (hI.tpNonempty (.inr hp))
    refine ⟨n, hI.inNodes n (by simp [allNodes, hn]), ?_⟩
    rw [htr, notStarted_iff, hT.lifeTp n hn]; simp
  | susp d =>
    obtain ⟨pre, mid, h1, h2, h3⟩ := hB (by rw [hp]; rfl)
    unfold ctlStep
    rw [hp]
    dsimp only
    unfold CurOK at h3
    rw [hp] at h3
    have hok : TickOK C pre mid := by
      cases d with
      | false =>
        obtain ⟨⟨x, er, y, q1, q2, q4⟩, n, hn, hns⟩ := h3
        rw [h1] at hns
        refine ⟨⟨fun _ => ⟨n, hn, hns⟩, fun _ => ⟨er, by rw [q1]; simp⟩⟩, ?_⟩
        intro x' er' y' hx'
        have huniq : x = x' ∧ y = y' := by
          rw [q1] at hx'
          rcases List.append_eq_append_iff.1 hx' with ⟨as, p1, p2⟩ | ⟨as, p1, p2⟩ <;> cases as with
          | nil =>
            rw [List.nil_append] at p2
            rw [List.append_nil] at p1
            first
            | exact ⟨p1.symm, (List.cons.inj p2).2⟩
            | exact ⟨p1, ((List.cons.inj p2).2).symm⟩
          | cons b as =>
            have p3 := (List.cons.inj p2).2
            have p5 := (List.cons.inj p2).1
            have p4 : ∀ l, Event.onTick er' ∈ as.append (Event.onTick er' :: l) := fun l =>
              List.mem_append_right as List.mem_cons_self
            first
            | exact absurd (by rw [p3]; exact p4 _) (q4 er')
            | (have := q2 (Event.onTick er') (by rw [p1, p5]; simp); simp [early] at this)
        obtain ⟨rfl, rfl⟩ := huniq
        exact ⟨fun e he => early_cases (q2 e he), q4⟩
      | true =>
        obtain ⟨q1, q2⟩ := h3
        rw [h1] at q2
        refine ⟨⟨fun ⟨er, h⟩ => absurd h (q1 er), fun ⟨n, hn, h⟩ => absurd h (q2 n hn)⟩, ?_⟩
        intro x er y h
        exact absurd (by rw [h]; simp) (q1 er)
    refine ⟨?_, fun _ => ⟨s.trace, [], rfl, by simp, ?_⟩⟩
    · show Ticks (TickOK C) (s.trace ++ [.resumed])
      rw [h1] at hA ⊢
      exact hA.resume h2 hok
    · cases d
      · show ∀ e ∈ [], early e = true
        simp
      · show ∀ er, Event.onTick er ∉ []
        simp
  | drainTop =>
    obtain ⟨pre, mid, h1, h2, h3⟩ := hB (by rw [hp]; rfl)
    unfold CurOK at h3
    rw [hp] at h3
    unfold ctlStep
    rw [hp]
    dsimp only
    split
    · refine ⟨hA.append (by simp), fun _ => ⟨pre, mid ++ [.afterExecution s.erec], ?_, ?_, trivial⟩⟩
      · show s.trace ++ _ = _; rw [h1]; simp
      · simpa using h2
    · exact ⟨hA, fun _ => ⟨pre, mid, h1, h2, h3⟩⟩
  | unwinding e =>
    unfold ctlStep; rw [hp]; dsimp only
    split
    · exact ⟨hA, fun h => by cases h⟩
    · exact ⟨hA, hB⟩
  | destroying =>
    unfold ctlStep; rw [hp]; dsimp only
    split
    · exact ⟨hA, fun h => by cases h⟩
    · exact ⟨hA, hB⟩
  | finished => unfold ctlStep; rw [hp]; exact ⟨hA, fun h => by cases h⟩
  | threw e => unfold ctlStep; rw [hp]; exact ⟨hA, fun h => by cases h⟩
  | destroyed => unfold ctlStep; rw [hp]; exact ⟨hA, hB⟩
  | ub => unfold ctlStep; rw [hp]; exact ⟨hA, hB⟩
  | abort => unfold ctlStep; rw [hp]; exact ⟨hA, hB⟩
  | outOfFuel => unfold ctlStep; rw [hp]; exact ⟨hA, hB⟩

/-- adding an event of a worker -/
theorem CurOK.worker {s : St} {mid : List Event} {e : Event} (h : CurOK C s mid)
    (he : (∃ n, e = .jobBegin n false) ∨ ∃ n, e = .jobEnd n) (s' : St)
    (hp : s'.phase = s.phase) (ht : s'.trace = s.trace ++ [e]) : CurOK C s' (mid ++ [e]) := by
  have h1 : ∀ er, e ≠ .onTick er := by rintro er rfl; simp at he
  have h2 : ∀ n, NotStarted [e] n := by
    rintro n er hm; simp at hm; rw [← hm] at he; simp at he
  have hA : (∃ x er y, mid = x ++ Event.onTick er :: y ∧ (∀ e ∈ x, early e = true) ∧
      ∀ er', Event.onTick er' ∉ y) →
      ∃ x er y, mid ++ [e] = x ++ Event.onTick er :: y ∧ (∀ e ∈ x, early e = true) ∧
      ∀ er', Event.onTick er' ∉ y := by
    rintro ⟨x, er, y, q1, q2, q4⟩
    refine ⟨x, er, y ++ [e], by rw [q1]; simp, q2, fun er' hm => ?_⟩
    rcases List.mem_append.1 hm with hm | hm
    · exact q4 er' hm
    · simp at hm; exact h1 er' hm.symm
  have hB : (∀ er, Event.onTick er ∉ mid) → ∀ er, Event.onTick er ∉ mid ++ [e] := by
    intro q er hm
    rcases List.mem_append.1 hm with hm | hm
    · exact q er hm
    · simp at hm; exact h1 er hm.symm
  unfold CurOK at h ⊢
  rw [hp]
  split at h <;> (try dsimp only)
  · intro e' hm
    rcases List.mem_append.1 hm with hm | hm
    · exact h e' hm
    · simp at hm; subst hm
      rcases he with ⟨n, rfl⟩ | ⟨n, rfl⟩ <;> rfl
  · exact hA h
  · exact hA h
  · refine ⟨hA h.1, ?_⟩
    obtain ⟨n, hn, q⟩ := h.2
    exact ⟨n, hn, by rw [ht]; exact q.append (h2 n)⟩
  · exact hB h
  · exact hB h
  · refine ⟨hB h.1, fun n hn hs => h.2 n hn (fun er hm => hs er ?_)⟩
    rw [ht]; exact List.mem_append_left _ hm

theorem tick_step (hwf : C.dag.WF) {s : St} (hI : Inv C s) (hT : TInv C s) (h : TickInv C s)
    (m : Move) : TickInv C (step C s m) := by
  cases m with
  | ctl => exact tick_ctl hwf hI hT h true
  | ctlFail => exact tick_ctl hwf hI hT h false
  | fault f =>
    have hc := tick_ctl hwf hI hT h true
    show TickInv C (faultStep C s f)
    rcases fault_cases C s f with h1 | ⟨_, _, _, _, _, _, _, h1⟩ | ⟨pre, e, post, _, h2, _, _, h1⟩ |
      ⟨_, _, h1⟩
    · rw [h1]; exact hc
    · rw [h1]; exact ⟨hc.1, fun h => by cases h⟩
    · rw [h1]
      refine ⟨hc.1.prefix ?_, fun h => by cases h⟩
      rw [h2]
      exact ⟨post, by simp⟩
    · rw [h1]; exact ⟨h.1, fun h => by cases h⟩
  | begin n =>
    simp only [step]
    split
    · exact h
    · split
      · refine ⟨h.1.append (by simp), fun hact => ?_⟩
        obtain ⟨pre, mid, h1, h2, h3⟩ := h.2 hact
        refine ⟨pre, mid ++ [.jobBegin n false], ?_, by simpa using h2, ?_⟩
        rotate_left
        · apply h3.worker (.inl ⟨n, rfl⟩) <;> rfl
        show s.trace ++ _ = _
        rw [h1]; simp
      · exact h
  | finish n =>
    simp only [step]
    split
    · exact h
    · split
      · refine ⟨h.1.append (by simp), fun hact => ?_⟩
        obtain ⟨pre, mid, h1, h2, h3⟩ := h.2 hact
        refine ⟨pre, mid ++ [.jobEnd n], ?_, by simpa using h2, ?_⟩
        rotate_left
        · apply h3.worker (.inr ⟨n, rfl⟩) <;> rfl
        show s.trace ++ _ = _
        rw [h1]; simp
      · exact h
  | destroy =>
    simp only [step, destroyStep]
    split <;> first | exact h | exact ⟨h.1, fun h => by cases h⟩

/-- **C65**.  In every complete tick (from one resumption to the next), `on_tick` is called iff some
task is not started by the end of the tick; it is called at most once, and before any other
callback, except that the prologue of the first tick comes before it. -/
theorem C65_on_tick (C : Cfg) (hwf : C.dag.WF) (ms : List Move) (pre mid post : List Event)
    (htr : (exec C ms).trace = pre ++ .resumed :: (mid ++ .resumed :: post))
    (hm : .resumed ∉ mid) : TickOK C pre mid :=
  (foldl_inv (P := fun s => Inv C s ∧ TInv C s ∧ TickInv C s)
    (fun _ m h => ⟨inv_step hwf h.1 m, h.2.1.step hwf h.1 m, tick_step hwf h.1 h.2.1 h.2.2 m⟩)
    ms St.init ⟨inv_init C, tinv_init C, by
      refine ⟨fun pre mid post h => ?_, fun h => by cases h⟩
      cases pre <;> cases h⟩).2.2.1 pre mid post htr hm

/-- The ticks of an execution: the `on_tick` calls between the resumptions; five tasks, seven
ticks, the last two only wait. -/
example : ticks (exec (Ex.cfg 0) Ex.done0).trace = 7 ∧
    (exec (Ex.cfg 0) Ex.done0).trace.countP (fun e => match e with
      | .onTick _ => true
      | _ => false) = 5 := ⟨by decide +kernel, by decide +kernel⟩

end Joque
