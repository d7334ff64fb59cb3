import Verif.Spec.HB
import Verif.Proof.Origin
import Verif.Proof.History
import Verif.Props.Exec1

/-!
# Jobs that must not overlap are synchronised

C01 and C03 say that certain jobs do not overlap in time.  In C++ that is not enough: what one job
wrote is visible to the other only if the threads synchronise in between.
-/

namespace Joque

theorem get_split {α : Type} {l pre post : List α} {e : α} (h : l = pre ++ e :: post) :
    l[pre.length]? = some e := by subst h; simp

theorem split_get {α : Type} {l : List α} {i : Nat} {e : α} (h : l[i]? = some e) :
    ∃ pre post, l = pre ++ e :: post ∧ pre.length = i := by
  obtain ⟨hi, rfl⟩ := List.getElem?_eq_some_iff.1 h
  refine ⟨l.take i, l.drop (i + 1), ?_, by simp; omega⟩
  rw [List.getElem_cons_drop, List.take_append_drop]

/-- a tag of a node's history is the tag of an event of the history -/
theorem life_split {n : Node} {tr : List Event} {a b : List Tag} {x : Tag}
    (h : life n tr = a ++ x :: b) :
    ∃ pre e post, tr = pre ++ e :: post ∧ tagOf n e = some x ∧ life n pre = a ∧ life n post = b := by
  induction tr generalizing a with
  | nil => simp [life] at h
  | cons e tr ih =>
    cases ht : tagOf n e with
    | none =>
      have h' : life n tr = a ++ x :: b := by
        rw [← h]; simp [life, ht]
      obtain ⟨pre, f, post, h1, h2, h3, h4⟩ := ih h'
      exact ⟨e :: pre, f, post, by rw [h1]; rfl, h2, by simp [life, ht] at h3 ⊢; exact h3, h4⟩
    | some y =>
      have h' : y :: life n tr = a ++ x :: b := by
        rw [← h]; simp [life, ht]
      cases a with
      | nil =>
        simp only [List.nil_append, List.cons.injEq] at h'
        exact ⟨[], e, tr, rfl, by rw [ht, h'.1], rfl, h'.2⟩
      | cons z a =>
        simp only [List.cons_append, List.cons.injEq] at h'
        obtain ⟨pre, f, post, h1, h2, h3, h4⟩ := ih h'.2
        refine ⟨e :: pre, f, post, by rw [h1]; rfl, h2, ?_, h4⟩
        rw [← h3, ← h'.1]
        simp [life, ht]

theorem tag_begin {n : Node} {e : Event} {b : Bool} (h : tagOf n e = some (.begin b)) :
    e = .jobBegin n b := by
  unfold tagOf at h
  split at h <;> (try split at h) <;> simp at h
  rename_i hm; rw [hm, h]

theorem tag_end {n : Node} {e : Event} (h : tagOf n e = some .end) : e = .jobEnd n := by
  unfold tagOf at h
  split at h <;> (try split at h) <;> simp at h
  rename_i hm; rw [hm]

theorem tag_log {n : Node} {e : Event} (h : tagOf n e = some .log) : ∃ l, e = .runLog n l := by
  unfold tagOf at h
  split at h <;> (try split at h) <;> simp at h
  rename_i l hm; exact ⟨l, by rw [hm]⟩

theorem tag_launch {n : Node} {e : Event} (h : tagOf n e = some .launch) : e = .launch n := by
  unfold tagOf at h
  split at h <;> (try split at h) <;> simp at h
  rename_i hm; rw [hm]

variable {C : Cfg}

theorem begin_unique (hwf : C.dag.WF) (ms : List Move) {i j : Nat} {n : Node} {b b' : Bool}
    (hi : (exec C ms).trace[i]? = some (.jobBegin n b))
    (hj : (exec C ms).trace[j]? = some (.jobBegin n b')) : i = j := by
  obtain ⟨hI, hT⟩ := both_exec hwf ms
  have key : ∀ i j : Nat, ∀ b b' : Bool, (exec C ms).trace[i]? = some (.jobBegin n b) →
      (exec C ms).trace[j]? = some (.jobBegin n b') → ¬ i < j := by
    intro i j b b' hi hj hlt
    obtain ⟨pre, post, h1, h2⟩ := split_get hj
    apply (begin_split hI hT h1).1
    refine ⟨b, ?_⟩
    rw [h1, List.getElem?_append_left (by omega)] at hi
    exact List.mem_of_getElem? hi
  have h1 := key i j b b' hi hj
  have h2 := key j i b' b hj hi
  omega

/-- a started job was launched before, when there are threads -/
theorem launch_before (hwf : C.dag.WF) (ms : List Move) (h0 : C.threadCount ≠ 0)
    {pre post : List Event} {n : Node} {b : Bool}
    (htr : (exec C ms).trace = pre ++ .jobBegin n b :: post) :
    b = false ∧ ∃ p q, pre = p ++ Event.launch n :: q := by
  obtain ⟨hI, hT⟩ := both_exec hwf ms
  have hb := (hT.always pre _ post htr).2.1
  have hb' : b = false := by cases b <;> simp_all
  refine ⟨hb', ?_⟩
  have hl : life n (exec C ms).trace = life n pre ++ .begin b :: life n post := by
    rw [htr, life_append]; simp [life, tagOf]
  have hmem : Tag.launch ∈ life n pre := by
    rcases life_shape hI hT n with h | ⟨_, h⟩ | ⟨h, _⟩
    · rw [hl] at h
      exfalso
      have : Tag.begin b ∈ [Tag.before, .after] := h.subset (by simp)
      simp at this
    · rw [hl, hb'] at h
      obtain ⟨t, ht⟩ := h
      rcases hp : life n pre with _ | ⟨x, _ | ⟨y, l⟩⟩ <;> rw [hp] at ht <;> simp at ht
      simp [ht.2.1]
    · exact absurd h h0
  obtain ⟨a, c, hac⟩ := List.append_of_mem hmem
  obtain ⟨p, e, q, h1, h2, _⟩ := life_split hac
  rw [tag_launch h2] at h1
  exact ⟨p, q, h1⟩

/-- What holds when the thread of a job is created: everything the task is ordered after, and every
task with a common resource that was launched before, has its record. -/
theorem at_launch (hwf : C.dag.WF) (ms : List Move) {p q : List Event} {n : Node}
    (htr : (exec C ms).trace = p ++ Event.launch n :: q) :
    ∀ m, (AfterEdge C.dag n m ∨ (m ≠ n ∧ (∃ r ∈ C.resources n, r ∈ C.resources m) ∧
      Event.launch m ∈ p)) → Recorded p m := by
  intro m hm
  obtain ⟨ms1, pre1, post1, h1, h2, _⟩ := event_origin hwf ms htr
  obtain ⟨hI, hT⟩ := both_exec hwf ms1
  have key : ∀ evs p', Emits C (exec C ms1) evs p' →
      (∃ more, evs = pre1 ++ Event.launch n :: more) → (exec C ms1).phase ≠ .created →
      Recorded p m := by
    rintro evs p' he ⟨post1, heq⟩ hcr
    have hmem : Event.launch n ∈ evs := by rw [heq]; simp
    cases he with
    | none => simp at hmem
    | prologue _ hp _ => exact absurd hp hcr
    | tick => simp at hmem
    | resumed => simp at hmem
    | afterExecution => simp at hmem
    | notRun => simp at hmem
    | asyncFailed => simp at hmem
    | deferredUb => simp at hmem
    | deferred => simp at hmem
    | collect => simp at hmem
    | launch d sl rest hp ht hl h0 =>
      simp at hmem
      have hpre : pre1 = [.beforeRun (exec C ms1).erec sl.h.node] := by
        rcases pre1 with _ | ⟨x, _ | ⟨y, l⟩⟩ <;> simp at heq
        · simp [heq.1]
      have hx : sl.h ∈ handles (exec C ms1) := by simp [handles, ht]
      have hp1 : ∀ k, Recorded (exec C ms1).trace k → Recorded p k := by
        rintro k ⟨r, hr, hk⟩
        refine ⟨r, ?_, hk⟩
        rw [← h1, recsOf_append]
        exact List.mem_append_left _ hr
      rcases hm with hm | ⟨hne, ⟨r, hr1, hr2⟩, hlm⟩
      · refine hp1 m (recorded_of_done hI hT (hI.preds sl.h hx m ?_))
        rw [← hmem]; exact hm
      · have hlm' : Event.launch m ∈ (exec C ms1).trace := by
          rw [← h1, hpre] at hlm
          simpa using hlm
        have htag : Tag.launch ∈ life m (exec C ms1).trace :=
          List.mem_filterMap.2 ⟨_, hlm', by simp [tagOf]⟩
        have hub : (exec C ms1).phase ≠ .ub := by rw [hp]; simp
        by_cases hn : m ∈ allNodes (exec C ms1)
        · unfold allNodes at hn
          simp only [List.mem_append] at hn
          rcases hn with (hn | hn) | hn
          · exfalso
            obtain ⟨h, hh, rfl⟩ := List.mem_map.1 hn
            cases hl' : h.launched
            · rw [hT.life_fresh (by rw [hp]; rfl) hh hl'] at htag; cases htag
            · have h4 := (hI.launched h hh hl').2.2.2.2.1 r hr2
              exact (hI.fresh hub sl.h hx hl).2.2 r (by rw [← hmem]; exact hr1) h4
          · refine hp1 m ?_
            obtain ⟨r', hr', rfl⟩ := List.mem_map.1 hn
            exact ⟨r', by rw [hT.recs]; exact hr', rfl⟩
          · rw [hT.lifeTp m hn] at htag; cases htag
        · rcases hT.lifeOther m hn with h3 | ⟨_, h3⟩ <;> rw [h3] at htag <;> simp at htag
  generalize hev : pre1 ++ Event.launch n :: post1 = evs at h2
  cases h2 with
  | none => simp at hev
  | ctl _ more p' h hpro =>
    refine key _ p' h ⟨post1 ++ more, by rw [← hev]; simp⟩ (fun hc => ?_)
    rcases hpro hc (.launch n) (by rw [← hev]; simp) with h | h
    · cases h
    · simp [proEv] at h
  | begin k => rcases pre1 with _ | ⟨_, pre1⟩ <;> simp at hev
  | «end» k => rcases pre1 with _ | ⟨_, pre1⟩ <;> simp at hev

/-- the job of a recorded task that has begun: its start, its end and the receipt of its result -/
theorem recorded_positions (hwf : C.dag.WF) (ms : List Move) (h0 : C.threadCount ≠ 0)
    {p q : List Event} {m : Node} (htr : (exec C ms).trace = p ++ q) (hr : Recorded p m)
    {i : Nat} {b : Bool} (hi : (exec C ms).trace[i]? = some (.jobBegin m b)) :
    ∃ k l log, i < k ∧ k < l ∧ l < p.length ∧ (exec C ms).trace[k]? = some (.jobEnd m) ∧
      (exec C ms).trace[l]? = some (.runLog m log) := by
  have hT := tinv_exec hwf ms
  obtain ⟨h1, r, hr1, hr2, h2⟩ := rec_split hT htr hr
  have hbeg : ∃ b, Tag.begin b ∈ life m p := by
    have : ∃ b, Tag.begin b ∈ life m (exec C ms).trace :=
      begin_mem_life.1 ⟨b, List.mem_of_getElem? hi⟩
    rw [htr, life_append, h1, List.append_nil] at this
    exact this
  have hlife : life m p = [.before, .launch] ++ .begin false :: [.end, .log, .after] := by
    rw [h2] at hbeg ⊢
    cases hs : r.status <;> rw [hs] at hbeg <;> simp [recLife, h0] at hbeg ⊢
  obtain ⟨p1, e1, q1, a1, a2, a3, a4⟩ := life_split hlife
  obtain ⟨p2, e2, q2, b1, b2, b3, b4⟩ := life_split (a := []) a4
  obtain ⟨p3, e3, q3, c1, c2, _, _⟩ := life_split (a := []) b4
  rw [tag_begin a2] at a1
  rw [tag_end b2] at b1
  obtain ⟨log, hlog⟩ := tag_log c2
  rw [hlog] at c1
  subst c1
  subst b1
  have hib : i = p1.length := by
    refine begin_unique hwf ms hi (b' := false) (get_split (pre := p1)
      (post := p2 ++ .jobEnd m :: (p3 ++ .runLog m log :: q3) ++ q) ?_)
    rw [htr, a1, List.append_assoc]; rfl
  refine ⟨(p1 ++ .jobBegin m false :: p2).length,
    (p1 ++ .jobBegin m false :: (p2 ++ .jobEnd m :: p3)).length, log, ?_, ?_, ?_, ?_, ?_⟩
  · rw [hib]; simp
  · simp only [List.length_append, List.length_cons]; omega
  · rw [a1]; simp only [List.length_append, List.length_cons]; omega
  · refine get_split (post := p3 ++ .runLog m log :: q3 ++ q) ?_
    rw [htr, a1]; simp
  · refine get_split (post := q3 ++ q) ?_
    rw [htr, a1]; simp

/-- with one control thread only, jobs that do not overlap are ordered by program order -/
theorem sync_sequential (hwf : C.dag.WF) (ms : List Move) (h0 : C.threadCount = 0) {i j : Nat}
    {m n : Node} {b b' : Bool} (hi : (exec C ms).trace[i]? = some (.jobBegin m b))
    (hj : (exec C ms).trace[j]? = some (.jobBegin n b')) (hij : i < j) :
    ∃ k, (exec C ms).trace[k]? = some (.jobEnd m) ∧ HappensBefore (exec C ms).trace i k ∧
      HappensBefore (exec C ms).trace k j := by
  obtain ⟨hI, hT⟩ := both_exec hwf ms
  obtain ⟨pre, post, h1, h2⟩ := split_get hj
  have hbeg : JobBegan pre m := by
    refine ⟨b, ?_⟩
    rw [h1, List.getElem?_append_left (by omega)] at hi
    exact List.mem_of_getElem? hi
  have hend : JobEnded pre m := by
    by_contra hne
    have := (hT.always pre _ post h1).2.2.2.2.1 [m] (by simp) (by
      intro x hx; rw [List.mem_singleton.1 hx]; exact ⟨hbeg, hne⟩)
    rw [h0] at this
    simp at this
  have htrue : ∀ x y, Event.jobBegin x y ∈ (exec C ms).trace → y = true := by
    intro x y hm
    obtain ⟨p, q, hpq⟩ := List.append_of_mem hm
    exact ((hT.always p _ q hpq).2.1).2 h0
  obtain ⟨k, hk⟩ := List.getElem?_of_mem hend
  have hklt : k < pre.length := by
    exact (List.getElem?_eq_some_iff.1 hk).1
  have hk' : (exec C ms).trace[k]? = some (.jobEnd m) := by
    rw [h1, List.getElem?_append_left hklt]; exact hk
  have hik : i < k := by
    -- the end comes after the start
    obtain ⟨p, q, e1, e2⟩ := split_get hi
    by_contra hle
    have hne : k ≠ i := by rintro rfl; rw [hi] at hk'; cases hk'
    have hmem : Event.jobEnd m ∈ p := by
      rw [e1, List.getElem?_append_left (by omega)] at hk'
      exact List.mem_of_getElem? hk'
    have hlife : life m (exec C ms).trace = life m p ++ .begin b :: life m q := by
      rw [e1, life_append]; simp [life, tagOf]
    have ht : Tag.end ∈ life m p := end_mem_life.1 hmem
    rcases life_shape hI hT m with h | ⟨h, _⟩ | ⟨_, h⟩
    · rw [hlife] at h
      have : Tag.end ∈ [Tag.before, .after] := h.subset (by simp [ht])
      simp at this
    · exact h h0
    · rw [hlife] at h
      obtain ⟨t, hh⟩ := h
      rcases hp : life m p with _ | ⟨x, _ | ⟨y, _ | ⟨z, _ | ⟨w, _ | ⟨v, l⟩⟩⟩⟩⟩ <;>
        rw [hp] at hh ht <;> simp at hh
      rw [List.mem_singleton] at ht
      rw [hh.1] at ht; cases ht
  refine ⟨k, hk', .single (.job m b hi hk' hik), .single (.program _ _ hk' hj (by omega) ?_ ?_)⟩
  · have := List.mem_of_getElem? hi
    rw [htrue _ _ this] at this
    exact this
  · exact htrue _ _ (List.mem_of_getElem? hj)

theorem sync_threads (hwf : C.dag.WF) (ms : List Move) (h0 : C.threadCount ≠ 0) {i j : Nat}
    {m n : Node} {b b' : Bool} (hi : (exec C ms).trace[i]? = some (.jobBegin m b))
    (hj : (exec C ms).trace[j]? = some (.jobBegin n b')) {p q : List Event}
    (hp : (exec C ms).trace = p ++ Event.launch n :: q) (hpj : p.length < j)
    (hr : Recorded p m) :
    ∃ k, (exec C ms).trace[k]? = some (.jobEnd m) ∧ HappensBefore (exec C ms).trace i k ∧
      HappensBefore (exec C ms).trace k j := by
  have hb : b' = false := by
    obtain ⟨pre, post, h1, _⟩ := split_get hj
    exact (launch_before hwf ms h0 h1).1
  subst hb
  obtain ⟨k, l, log, h1, h2, h3, h4, h5⟩ := recorded_positions hwf ms h0 hp hr hi
  refine ⟨k, h4, .single (.job m b hi h4 h1), ?_⟩
  refine .tail (.tail (.single (.receive m log h4 h5 h2)) (b := l) (c := p.length) ?_) ?_
  · exact .program _ _ h5 (get_split hp) h3 trivial trivial
  · exact .create n (get_split hp) hj hpj

/-- **C63**.  If `A` is ordered after `B` and both jobs were started, then everything `B`'s job did
happens before everything `A`'s job does (in the sense of the memory model). -/
theorem C63_ordered (C : Cfg) (hwf : C.dag.WF) (ms : List Move) (A B : Node) (a b : Bool)
    (i j : Nat) (hAB : AfterEdge C.dag A B)
    (hi : (exec C ms).trace[i]? = some (.jobBegin B b))
    (hj : (exec C ms).trace[j]? = some (.jobBegin A a)) :
    ∃ k, (exec C ms).trace[k]? = some (.jobEnd B) ∧ HappensBefore (exec C ms).trace i k ∧
      HappensBefore (exec C ms).trace k j := by
  obtain ⟨pre, post, h1, h2⟩ := split_get hj
  obtain ⟨hrec, _, hpost⟩ := C01_ordering C hwf ms pre post A B a h1 hAB
  have hij : i < j := by
    by_contra hle
    rcases Nat.lt_or_ge i (j + 1) with h | h
    · have hij : i = j := by omega
      rw [hij, hj] at hi
      simp only [Option.some.injEq, Event.jobBegin.injEq] at hi
      obtain ⟨h3, _⟩ := rec_split (both_exec hwf ms).2 h1 hrec
      rw [hi.1] at h3
      simp [life, tagOf] at h3
    · apply hpost
      refine ⟨b, ?_⟩
      rw [h1, List.getElem?_append_right (by omega), h2,
        show i - j = (i - j - 1) + 1 by omega, List.getElem?_cons_succ] at hi
      exact List.mem_of_getElem? hi
  have hne : B ≠ A := by
    rintro rfl
    have := begin_unique hwf ms hi hj
    omega
  by_cases h0 : C.threadCount = 0
  · exact sync_sequential hwf ms h0 hi hj hij
  · obtain ⟨_, p, q, hpq⟩ := launch_before hwf ms h0 h1
    have htr : (exec C ms).trace = p ++ Event.launch A :: (q ++ .jobBegin A a :: post) := by
      rw [h1, hpq]; simp
    refine sync_threads hwf ms h0 hi hj htr ?_ (at_launch hwf ms htr B (.inl hAB))
    rw [← h2, hpq]; simp

/-- **C63**.  Of two jobs with a common resource that were both started, everything the earlier one
did happens before everything the later one does: a resource protects data like a mutex. -/
theorem C63_resource (C : Cfg) (hwf : C.dag.WF) (ms : List Move) (A B : Node) (a b : Bool)
    (i j : Nat) (hne : A ≠ B) (r : Res) (hrA : r ∈ C.resources A) (hrB : r ∈ C.resources B)
    (hi : (exec C ms).trace[i]? = some (.jobBegin B b))
    (hj : (exec C ms).trace[j]? = some (.jobBegin A a)) (hij : i < j) :
    ∃ k, (exec C ms).trace[k]? = some (.jobEnd B) ∧ HappensBefore (exec C ms).trace i k ∧
      HappensBefore (exec C ms).trace k j := by
  by_cases h0 : C.threadCount = 0
  · exact sync_sequential hwf ms h0 hi hj hij
  · obtain ⟨pre, post, h1, h2⟩ := split_get hj
    obtain ⟨pre', post', h1', h2'⟩ := split_get hi
    obtain ⟨_, p, q, hpq⟩ := launch_before hwf ms h0 h1
    obtain ⟨_, p', q', hpq'⟩ := launch_before hwf ms h0 h1'
    have htr : (exec C ms).trace = p ++ Event.launch A :: (q ++ .jobBegin A a :: post) := by
      rw [h1, hpq]; simp
    have htr' : (exec C ms).trace = p' ++ Event.launch B :: (q' ++ .jobBegin B b :: post') := by
      rw [h1', hpq']; simp
    have hlt : p.length < j := by rw [← h2, hpq]; simp
    have hlt' : p'.length < i := by rw [← h2', hpq']; simp
    refine sync_threads hwf ms h0 hi hj htr hlt ?_
    rcases Nat.lt_trichotomy p'.length p.length with h | h | h
    · refine at_launch hwf ms htr B (.inr ⟨hne.symm, ⟨r, hrA, hrB⟩, ?_⟩)
      have := get_split htr'
      rw [htr, List.getElem?_append_left h] at this
      exact List.mem_of_getElem? this
    · exfalso
      have e1 := get_split htr
      have e2 := get_split htr'
      rw [h, e1] at e2
      simp only [Option.some.injEq, Event.launch.injEq] at e2
      exact hne e2
    · exfalso
      have hrec : Recorded p' A := by
        refine at_launch hwf ms htr' A (.inr ⟨hne, ⟨r, hrB, hrA⟩, ?_⟩)
        have := get_split htr
        rw [htr', List.getElem?_append_left h] at this
        exact List.mem_of_getElem? this
      obtain ⟨k, l, log, e1, e2, e3, _, _⟩ := recorded_positions hwf ms h0 htr' hrec hj
      omega

/-- **C63**.  What a job did happens before `after_run` reports its record, so the caller may look
at it from then on. -/
theorem C63_reported (C : Cfg) (hwf : C.dag.WF) (ms : List Move) (i j : Nat) (er : ExecRecord)
    (r : RunRecord) (ref : Node) (b : Bool)
    (hi : (exec C ms).trace[i]? = some (.jobBegin r.node b))
    (hj : (exec C ms).trace[j]? = some (.afterRun er r ref)) :
    ∃ k, (exec C ms).trace[k]? = some (.jobEnd r.node) ∧ HappensBefore (exec C ms).trace i k ∧
      HappensBefore (exec C ms).trace k j := by
  obtain ⟨hI, hT⟩ := both_exec hwf ms
  obtain ⟨pre, post, h1, h2⟩ := split_get hj
  have h1' : (exec C ms).trace = (pre ++ [.afterRun er r ref]) ++ post := by rw [h1]; simp
  have hrec : Recorded (pre ++ [.afterRun er r ref]) r.node := ⟨r, by simp [recsOf], rfl⟩
  by_cases h0 : C.threadCount = 0
  · obtain ⟨e1, r2, hr2, hrn, e2⟩ := rec_split hT h1' hrec
    have hbeg : ∃ b, Tag.begin b ∈ life r.node (pre ++ [.afterRun er r ref]) := by
      have : ∃ b, Tag.begin b ∈ life r.node (exec C ms).trace :=
        begin_mem_life.1 ⟨b, List.mem_of_getElem? hi⟩
      rw [h1', life_append, e1, List.append_nil] at this
      exact this
    have hlife : life r.node (pre ++ [.afterRun er r ref]) =
        [.before] ++ .begin true :: [.end, .log, .after] := by
      rw [e2] at hbeg ⊢
      cases hs : r2.status <;> rw [hs] at hbeg <;> simp [recLife, h0] at hbeg ⊢
    obtain ⟨p1, f1, q1, a1, a2, a3, a4⟩ := life_split hlife
    obtain ⟨p2, f2, q2, b1, b2, b3, b4⟩ := life_split (a := []) a4
    rw [tag_begin a2] at a1
    rw [tag_end b2] at b1
    subst b1
    have hib : i = p1.length := by
      refine begin_unique hwf ms hi (b' := true) (get_split (pre := p1)
        (post := p2 ++ .jobEnd r.node :: q2 ++ post) ?_)
      rw [h1', a1, List.append_assoc]; rfl
    have hk : (exec C ms).trace[(p1 ++ .jobBegin r.node true :: p2).length]? =
        some (.jobEnd r.node) := by
      refine get_split (post := q2 ++ post) ?_
      rw [h1', a1]; simp
    have hlen : (p1 ++ .jobBegin r.node true :: p2).length < j := by
      have h3 := congrArg List.length a1
      simp only [List.length_append, List.length_cons, List.length_nil] at h3 ⊢
      have : q2 ≠ [] := by rintro rfl; simp [life] at b4
      have : 0 < q2.length := List.length_pos_iff.2 this
      omega
    refine ⟨_, hk, .single (.job _ b hi hk ?_), .single (.program _ _ hk hj hlen ?_ trivial)⟩
    · rw [hib]; simp
    · show Event.jobBegin r.node true ∈ _
      rw [h1', a1]; simp
  · obtain ⟨k, l, log, e1, e2, e3, e4, e5⟩ := recorded_positions hwf ms h0 h1' hrec hi
    have hl : l < j := by
      rcases Nat.lt_or_ge l j with h | h
      · exact h
      · exfalso
        have : l = j := by simp at e3; omega
        rw [this, hj] at e5; cases e5
    exact ⟨k, e4, .single (.job _ b hi e4 e1),
      .tail (.single (.receive _ log e4 e5 e2)) (.program _ _ e5 hj hl trivial trivial)⟩

/-- **C63**.  What the control thread did up to the `before_run` of a task, in particular what the
caller did before the tick that starts it, happens before the task's job. -/
theorem C63_started (C : Cfg) (hwf : C.dag.WF) (ms : List Move) (i k j : Nat) (er : ExecRecord)
    (n : Node) (b : Bool) (e : Event) (hki : k ≤ i)
    (hk : (exec C ms).trace[k]? = some e) (he : OnControl (exec C ms).trace e)
    (hi : (exec C ms).trace[i]? = some (.beforeRun er n))
    (hj : (exec C ms).trace[j]? = some (.jobBegin n b)) :
    HappensBefore (exec C ms).trace k j := by
  obtain ⟨hI, hT⟩ := both_exec hwf ms
  obtain ⟨pre, post, h1, h2⟩ := split_get hi
  have hl : life n (exec C ms).trace = life n pre ++ .before :: life n post := by
    rw [h1, life_append]; simp [life, tagOf]
  have hbeg : ∃ b, Tag.begin b ∈ life n (exec C ms).trace :=
    begin_mem_life.1 ⟨b, List.mem_of_getElem? hj⟩
  have hpre : life n pre = [] := by
    rcases hp : life n pre with _ | ⟨x, l⟩
    · rfl
    · exfalso
      have key : ∀ full : List Tag, Tag.before ∉ full.tail →
          ¬ life n (exec C ms).trace <+: full := by
        rintro full hf ⟨t, rfl⟩
        apply hf
        rw [hl, hp]
        simp
      rcases life_shape hI hT n with h | ⟨_, h⟩ | ⟨_, h⟩
      · exact key _ (by decide) h
      · exact key _ (by decide) h
      · exact key _ (by decide) h
  by_cases h0 : C.threadCount = 0
  · obtain ⟨p, q, e1, e2⟩ := split_get hj
    have hb : b = true := ((hT.always p _ q e1).2.1).2 h0
    refine .single (.program _ _ hk hj ?_ he hb)
    rcases Nat.lt_or_ge k j with h | h
    · exact h
    · exfalso
      have hne : j ≠ i := by rintro rfl; rw [hi] at hj; cases hj
      have hm : Event.jobBegin n b ∈ pre := by
        rw [h1, List.getElem?_append_left (by omega)] at hj
        exact List.mem_of_getElem? hj
      have := begin_mem_life.1 (⟨b, hm⟩ : JobBegan pre n)
      rw [hpre] at this
      obtain ⟨_, h⟩ := this; cases h
  · obtain ⟨p, q, e1, e2⟩ := split_get hj
    obtain ⟨hb, p', q', e3⟩ := launch_before hwf ms h0 e1
    subst hb
    have htr : (exec C ms).trace = p' ++ Event.launch n :: (q' ++ .jobBegin n false :: q) := by
      rw [e1, e3]; simp
    have hlj : p'.length < j := by rw [← e2, e3]; simp
    refine .tail (.single (.program _ _ hk (get_split htr) ?_ he trivial))
      (.create n (get_split htr) hj hlj)
    rcases Nat.lt_or_ge k p'.length with h | h
    · exact h
    · exfalso
      have hg := get_split htr
      have hne : p'.length ≠ i := by intro h'; rw [h', hi] at hg; cases hg
      have hm : Event.launch n ∈ pre := by
        rw [h1, List.getElem?_append_left (by omega)] at hg
        exact List.mem_of_getElem? hg
      have : Tag.launch ∈ life n pre := List.mem_filterMap.2 ⟨_, hm, by simp [tagOf]⟩
      rw [hpre] at this; cases this

/-- task 2 is ordered after task 4 and both run, on threads -/
example : AfterEdge (Ex.cfg 2).dag 2 4 ∧
    (∃ i : Nat, (exec (Ex.cfg 2) Ex.done2).trace[i]? = some (Event.jobBegin 4 false)) ∧
    (∃ j : Nat, (exec (Ex.cfg 2) Ex.done2).trace[j]? = some (Event.jobBegin 2 false)) :=
  ⟨by show (⟨2, 4, .after⟩ : Edge) ∈ Ex.dag.edges; decide,
    List.getElem?_of_mem (by decide +kernel), List.getElem?_of_mem (by decide +kernel)⟩

/-- tasks 1 and 2 share a resource and both run -/
example : ∃ ms, (∃ i : Nat, (exec (Ex.par 3) ms).trace[i]? = some (Event.jobBegin 1 false)) ∧
    ∃ j : Nat, (exec (Ex.par 3) ms).trace[j]? = some (Event.jobBegin 2 false) :=
  ⟨List.replicate 20 .ctl ++ [.begin 1, .finish 1] ++ List.replicate 20 .ctl ++ [.begin 2],
    List.getElem?_of_mem (by decide +kernel), List.getElem?_of_mem (by decide +kernel)⟩

end Joque
