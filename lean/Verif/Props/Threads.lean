import Verif.Model.Threads
import Verif.Spec.Threads
import Verif.Props.Race
import Verif.Props.Two

/-!
# C105: executions on different threads

A program that executes one task set on each of several threads, each with a call of `exec`.
-/

namespace Joque

theorem part_append (k : Nat) (a b : List (Nat × Event)) : part k (a ++ b) = part k a ++ part k b :=
  List.filterMap_append

theorem part_same (k : Nat) (evs : List Event) : part k (evs.map (Prod.mk k)) = evs := by
  induction evs with
  | nil => rfl
  | cons e l ih => simp [part]

theorem part_other {k l : Nat} (h : k ≠ l) (evs : List Event) :
    part l (evs.map (Prod.mk k)) = [] := by
  induction evs with
  | nil => rfl
  | cons e l ih => simp [part, h]

theorem mem_part {k : Nat} {e : Event} {log : List (Nat × Event)} :
    e ∈ part k log ↔ (k, e) ∈ log := by
  unfold part
  rw [List.mem_filterMap]
  constructor
  · rintro ⟨⟨l, f⟩, h, hf⟩
    dsimp only at hf
    split at hf
    · rename_i hl; subst hl; cases hf; exact h
    · cases hf
  · intro h
    exact ⟨_, h, by simp⟩

/-- the moves of one of the executions -/
def movesOf (k : Nat) (ms : List (Nat × Move)) : List Move :=
  ms.filterMap fun p => if p.1 = k then some p.2 else none

theorem par_snoc (C : Nat → Cfg) (ms : List (Nat × Move)) (m : Nat × Move) :
    Par.exec C (ms ++ [m]) = Par.step C (Par.exec C ms) m := by
  unfold Par.exec; rw [List.foldl_append]; rfl

/-- **C105**, part 1.  Each execution behaves as if it were alone (as far as there is no data race):
its state and its history are those of an execution with its own moves. -/
theorem C105_alone (C : Nat → Cfg) (ms : List (Nat × Move)) (k : Nat) :
    (Par.exec C ms).st k = exec (C k) (movesOf k ms) ∧
    part k (Par.exec C ms).log = (exec (C k) (movesOf k ms)).trace := by
  induction ms using List.reverseRecOn with
  | nil => exact ⟨rfl, rfl⟩
  | append_singleton ms m ih =>
    obtain ⟨l, m⟩ := m
    obtain ⟨h1, h2⟩ := ih
    rw [par_snoc]
    have hm : movesOf k (ms ++ [(l, m)]) = movesOf k ms ++ if l = k then [m] else [] := by
      unfold movesOf
      rw [List.filterMap_append]
      by_cases h : l = k <;> simp [h]
    simp only [Par.step, hm]
    by_cases h : l = k
    · subst h
      simp only [if_true, part_append, part_same]
      have hs : exec (C l) (movesOf l ms ++ [m]) = step (C l) ((Par.exec C ms).st l) m := by
        rw [exec_append, ← h1]; rfl
      refine ⟨hs.symm, ?_⟩
      rw [hs, h2, ← h1]
      exact (step_grows _ _ m).symm
    · rw [if_neg (fun hk => h hk.symm), if_neg h, List.append_nil, part_append, part_other h,
        List.append_nil]
      exact ⟨h1, h2⟩

theorem part_get {k i : Nat} {e : Event} {log : List (Nat × Event)} (h : log[i]? = some (k, e)) :
    (part k log)[place k log i]? = some e := by
  obtain ⟨pre, post, rfl, rfl⟩ := split_get h
  unfold place
  rw [List.take_left, part_append]
  have : part k ((k, e) :: post) = e :: part k post := by simp [part]
  rw [this]
  simp

theorem place_lt {k i j : Nat} {e : Event} {log : List (Nat × Event)} (h : log[i]? = some (k, e))
    (hij : i < j) : place k log i < place k log j := by
  obtain ⟨pre, post, rfl, rfl⟩ := split_get h
  unfold place
  rw [List.take_left, List.take_append, part_append]
  obtain ⟨d, hd⟩ : ∃ d, j - pre.length = d + 1 := ⟨j - pre.length - 1, by omega⟩
  rw [hd, List.take_of_length_le (by omega)]
  have : part k (List.take (d + 1) ((k, e) :: post)) = e :: part k (post.take d) := by
    simp [part]
  rw [this]
  simp

/-- accesses by one execution to the same location of the program are to the same location of the
execution -/
theorem inProgram_inj {k : Nat} {l l' : Loc} (h : l.inProgram k = l'.inProgram k) : l = l' := by
  cases l <;> cases l' <;> simp [Loc.inProgram] at h <;> simp [h]

theorem callback_engine (g : Dag) {e : Event} (h : e.callback = true) :
    Loc.engine.wr ∈ Joque.accesses g e := by
  cases e <;> simp [Event.callback] at h <;> simp [Joque.accesses]

theorem mem_accesses {P : Program} {p : Nat × Event} {a : PAccess} :
    a ∈ P.accesses p ↔ (∃ b ∈ Joque.accesses (P.cfg p.1).dag p.2, a = ⟨b.loc.inProgram p.1, b.write⟩) ∨
      (p.2.callback = true ∧ P.uses p.1 p.2 = true ∧ a = ⟨.visitor (P.vis p.1), true⟩) := by
  unfold Program.accesses
  rw [List.mem_append, List.mem_map]
  apply or_congr
  · exact ⟨fun ⟨b, h, e⟩ => ⟨b, h, e.symm⟩, fun ⟨b, h, e⟩ => ⟨b, h, e.symm⟩⟩
  · split
    · rename_i h
      simp only [Bool.and_eq_true] at h
      simp [h]
    · rename_i h
      simp only [Bool.and_eq_true, not_and] at h
      simp only [List.not_mem_nil, false_iff, not_and]
      intro h1 h2
      exact absurd h2 (h h1)

/-- conflicting accesses of one execution, seen in the program, are conflicting accesses of the
execution -/
theorem conflict_own {P : Program} {k : Nat} {e f : Event} (h : P.Conflict (k, e) (k, f)) :
    ∃ a ∈ Joque.accesses (P.cfg k).dag e, ∃ b ∈ Joque.accesses (P.cfg k).dag f,
      Joque.Conflict a b := by
  obtain ⟨a, ha, b, hb, hl, hw⟩ := h
  rcases mem_accesses.1 ha with ⟨a', ha', rfl⟩ | ⟨hc, _, rfl⟩
  · rcases mem_accesses.1 hb with ⟨b', hb', rfl⟩ | ⟨hc', _, rfl⟩
    · exact ⟨a', ha', b', hb', inProgram_inj hl, hw⟩
    · exact absurd hl (by cases a'.loc <;> simp [Loc.inProgram])
  · rcases mem_accesses.1 hb with ⟨b', hb', rfl⟩ | ⟨hc', _, rfl⟩
    · exact absurd hl.symm (by cases b'.loc <;> simp [Loc.inProgram])
    · exact ⟨_, callback_engine _ hc, _, callback_engine _ hc', rfl, .inl rfl⟩

/-- The event is a call of the job of task `t`, or the end of one. -/
def CallsJob (g : Dag) (t : TaskId) (e : Event) : Prop :=
  ∃ n, g.task n = t ∧ ((∃ i l, e = .jobInval n i l) ∨ (∃ b, e = .jobBegin n b) ∨ e = .jobEnd n)

theorem callsJob_access {g : Dag} {t : TaskId} {e : Event} (h : CallsJob g t e) :
    (Loc.job t).wr ∈ Joque.accesses g e := by
  obtain ⟨n, rfl, ⟨i, l, rfl⟩ | ⟨b, rfl⟩ | rfl⟩ := h <;> simp [Joque.accesses]

/-- Conflicting accesses of two executions: the jobs of one task, or one visitor. -/
theorem conflict_other {P : Program} {k l : Nat} (hkl : k ≠ l) {e f : Event} :
    P.Conflict (k, e) (l, f) ↔
    (∃ t, CallsJob (P.cfg k).dag t e ∧ CallsJob (P.cfg l).dag t f) ∨
    (P.vis k = P.vis l ∧ (e.callback = true ∧ P.uses k e = true) ∧
      (f.callback = true ∧ P.uses l f = true)) := by
  constructor
  · rintro ⟨a, ha, b, hb, hl, hw⟩
    rcases mem_accesses.1 ha with ⟨a', ha', rfl⟩ | ⟨hc, hu, rfl⟩
    · rcases mem_accesses.1 hb with ⟨b', hb', rfl⟩ | ⟨hc', _, rfl⟩
      · obtain ⟨_, w2, w3, _⟩ := write_cases ha'
        obtain ⟨_, v2, v3, _⟩ := write_cases hb'
        left
        cases hA : a'.loc <;> cases hB : b'.loc <;>
          simp only [Loc.inProgram, hA, hB, PLoc.own.injEq, PLoc.task.injEq, PLoc.job.injEq,
            reduceCtorEq, and_false] at hl <;> try exact absurd hl.1 hkl
        · rw [w2 _ hA, v2 _ hB] at hw
          simp at hw
        · subst hl
          exact ⟨_, w3 _ hA, v3 _ hB⟩
      · exact absurd hl (by cases a'.loc <;> simp [Loc.inProgram])
    · rcases mem_accesses.1 hb with ⟨b', hb', rfl⟩ | ⟨hc', hu', rfl⟩
      · exact absurd hl.symm (by cases b'.loc <;> simp [Loc.inProgram])
      · exact .inr ⟨PLoc.visitor.inj hl, ⟨hc, hu⟩, ⟨hc', hu'⟩⟩
  · rintro (⟨t, he, hf⟩ | ⟨hv, ⟨hc, hu⟩, ⟨hc', hu'⟩⟩)
    · exact ⟨_, mem_accesses.2 (.inl ⟨_, callsJob_access he, rfl⟩), _,
        mem_accesses.2 (.inl ⟨_, callsJob_access hf, rfl⟩), rfl, .inl rfl⟩
    · exact ⟨_, mem_accesses.2 (.inr ⟨hc, hu, rfl⟩), _, mem_accesses.2 (.inr ⟨hc', hu', rfl⟩),
        by simp [hv], .inl rfl⟩

theorem conflict_symm {P : Program} {p q : Nat × Event} (h : P.Conflict p q) : P.Conflict q p := by
  obtain ⟨a, ha, b, hb, hl, hw⟩ := h
  exact ⟨b, hb, a, ha, hl.symm, hw.symm⟩

/-- **C105**, part 2.  The data races of a program are exactly the pairs of events of two different
executions which call the job of one task, or in which one visitor uses its state: nothing else the
executions do conflicts, and nothing orders such a pair, however far apart in time its events are. -/
theorem C105_races (P : Program) (hwf : ∀ k, (P.cfg k).dag.WF) (hone : ∀ k, OneAtATime (P.cfg k))
    (ms : List (Nat × Move)) (i j : Nat) :
    P.Race (Par.exec P.cfg ms).log i j ↔
    ∃ k l e f, k ≠ l ∧ (Par.exec P.cfg ms).log[i]? = some (k, e) ∧
      (Par.exec P.cfg ms).log[j]? = some (l, f) ∧
      ((∃ t, CallsJob (P.cfg k).dag t e ∧ CallsJob (P.cfg l).dag t f) ∨
        (P.vis k = P.vis l ∧ (e.callback = true ∧ P.uses k e = true) ∧
          (f.callback = true ∧ P.uses l f = true))) := by
  constructor
  · rintro ⟨⟨k, e⟩, ⟨l, f⟩, hi, hj, hne, hc, h1, h2⟩
    by_cases hkl : k = l
    · subst hkl
      exfalso
      have hp := (C105_alone P.cfg ms k).2
      have key : ∀ {i j : Nat} {e f : Event}, (Par.exec P.cfg ms).log[i]? = some (k, e) →
          (Par.exec P.cfg ms).log[j]? = some (k, f) → i < j → P.Conflict (k, e) (k, f) →
          ProgramOrder (Par.exec P.cfg ms).log i j := by
        intro i j e f hi hj hij hc
        obtain ⟨a, ha, b, hb, hab⟩ := conflict_own hc
        refine ⟨k, e, f, hi, hj, ?_⟩
        have h1 := part_get hi
        have h2 := part_get hj
        have h3 := place_lt hi hij
        rw [hp] at h1 h2 ⊢
        exact C85_ordered (P.cfg k) (hwf k) (hone k) _ _ _ e f h1 h2 h3 a b ha hb hab
      rcases Nat.lt_or_gt_of_ne hne with h | h
      · exact h1 (key hi hj h hc)
      · exact h2 (key hj hi h (conflict_symm hc))
    · exact ⟨k, l, e, f, hkl, hi, hj, (conflict_other hkl).1 hc⟩
  · rintro ⟨k, l, e, f, hkl, hi, hj, h⟩
    refine ⟨_, _, hi, hj, ?_, (conflict_other hkl).2 h, ?_, ?_⟩
    · rintro rfl
      rw [hi] at hj
      exact hkl (congrArg Prod.fst (Option.some.inj hj))
    · rintro ⟨m, e', f', hi', hj', _⟩
      rw [hi] at hi'; rw [hj] at hj'
      cases hi'; cases hj'
      exact hkl rfl
    · rintro ⟨m, e', f', hi', hj', _⟩
      rw [hj] at hi'; rw [hi] at hj'
      cases hi'; cases hj'
      exact hkl rfl

/-- a call of a job is one of a task of the dag -/
theorem callsJob_node {C : Cfg} (hwf : C.dag.WF) (ms : List Move) {t : TaskId} {e : Event}
    (he : e ∈ (exec C ms).trace) (h : CallsJob C.dag t e) : ∃ n ∈ C.dag.nodes, C.dag.task n = t := by
  obtain ⟨n, ht, h⟩ := h
  refine ⟨n, ?_, ht⟩
  obtain ⟨i, hi⟩ := List.getElem?_of_mem he
  rcases h with ⟨a, l, rfl⟩ | ⟨b, rfl⟩ | rfl
  · rcases C15_prologue C hwf ms with h | ⟨asked, mid, rest, h, _, hn, hmid, hrest, _⟩
    · rw [h] at he; cases he
    · have hk : Event.jobInval n a l ∈ Event.resumed :: C.dag.nodes.map Event.nodeEnque ++
          asked.map (fun p =>
            Event.jobInval p.1 (if p.2.invalidated then .invalid else .valid) p.2.log) ++ mid := by
        rcases h with h | ⟨_, _, h⟩
        · rw [h, List.mem_append] at he
          exact he.resolve_right fun hr => (hrest _ hr).2.2.1 n a l rfl
        · exact h.subset he
      simp only [List.mem_append, List.mem_cons, List.mem_map, reduceCtorEq, false_or, and_false,
        exists_const] at hk
      rcases hk with ⟨p, hp, h⟩ | hm
      · cases h
        exact (hn p hp).1
      · rcases hmid _ hm with ⟨_, h⟩ | ⟨_, _, h⟩ <;> cases h
  · exact began_node hwf ms hi
  · obtain ⟨k, b, _, hk, _⟩ := begin_before hwf ms hi
    exact began_node hwf ms hk

/-- in an execution that has finished every job was asked -/
theorem finished_asked {C : Cfg} (hwf : C.dag.WF) (ms : List Move)
    (hf : (exec C ms).phase = .finished) {n : Node} (hn : n ∈ C.dag.nodes) :
    ∃ e ∈ (exec C ms).trace, CallsJob C.dag (C.dag.task n) e := by
  have hT := tinv_exec hwf ms
  have hx := hT.isFinished hf
  rcases C15_prologue C hwf ms with h | ⟨asked, mid, rest, h, _, _, hmid, _, hall⟩
  · rw [h] at hx; cases hx
  · generalize hP : Event.resumed :: C.dag.nodes.map Event.nodeEnque ++
        asked.map (fun p =>
          Event.jobInval p.1 (if p.2.invalidated then .invalid else .valid) p.2.log) ++ mid = P at h
    have hxP : Event.afterExecution (exec C ms).erec ∉ P := by
      rw [← hP]
      simp only [List.mem_append, List.mem_cons, List.mem_map, reduceCtorEq, false_or, and_false,
        exists_const]
      intro hm
      rcases hmid _ (hm.resolve_left (by simp)) with ⟨_, h⟩ | ⟨_, _, h⟩ <;> cases h
    rcases h with h | ⟨_, _, h⟩
    · rw [h, List.mem_append] at hx
      have hr := hx.resolve_left hxP
      obtain ⟨hperm, _⟩ := hall (List.ne_nil_of_mem hr)
      have := hperm.mem_iff.2 hn
      obtain ⟨p, hp, rfl⟩ := List.mem_map.1 this
      refine ⟨.jobInval p.1 (if p.2.invalidated then .invalid else .valid) p.2.log, ?_, _, rfl,
        .inl ⟨_, _, rfl⟩⟩
      rw [h, ← hP]
      simp only [List.mem_append, List.mem_map]
      exact .inl (.inl (.inr ⟨p, hp, rfl⟩))
    · exact absurd (h.subset hx) hxP

/-- **C105**, the part that holds.  Executions of dags that have no task in common, each with a
visitor of its own, have no data race. -/
theorem C105_partial (P : Program) (hwf : ∀ k, (P.cfg k).dag.WF)
    (hone : ∀ k, OneAtATime (P.cfg k))
    (htask : ∀ k l, k ≠ l → ∀ n ∈ (P.cfg k).dag.nodes, ∀ m ∈ (P.cfg l).dag.nodes,
      (P.cfg k).dag.task n ≠ (P.cfg l).dag.task m)
    (hvis : ∀ k l, k ≠ l → P.vis k ≠ P.vis l) (ms : List (Nat × Move)) (i j : Nat) :
    ¬ P.Race (Par.exec P.cfg ms).log i j := by
  intro h
  obtain ⟨k, l, e, f, hkl, hi, hj, ⟨t, he, hf⟩ | ⟨hv, _⟩⟩ := (C105_races P hwf hone ms i j).1 h
  · have hi' := mem_part.2 (List.mem_of_getElem? hi)
    have hj' := mem_part.2 (List.mem_of_getElem? hj)
    rw [(C105_alone P.cfg ms k).2] at hi'
    rw [(C105_alone P.cfg ms l).2] at hj'
    obtain ⟨n, hn, h1⟩ := callsJob_node (hwf k) _ hi' he
    obtain ⟨m, hm, h2⟩ := callsJob_node (hwf l) _ hj' hf
    exact htask k l hkl n hn m hm (h1.trans h2.symm)
  · exact hvis k l hkl hv

/-- **C105**, exactly.  If two executions of a program with `print_exec_visitor`s have finished,
then they had a data race if and only if they were given the same visitor or a common task.
The schedule does not matter. -/
theorem C105_exact (P : Program) (hwf : ∀ k, (P.cfg k).dag.WF) (hone : ∀ k, OneAtATime (P.cfg k))
    (shown : Nat → Node → Bool) (huse : ∀ k, P.uses k = printUses (shown k))
    (ms : List (Nat × Move)) (k l : Nat) (hkl : k ≠ l)
    (hk : ((Par.exec P.cfg ms).st k).phase = .finished)
    (hl : ((Par.exec P.cfg ms).st l).phase = .finished) :
    (∃ i j e f, (Par.exec P.cfg ms).log[i]? = some (k, e) ∧
      (Par.exec P.cfg ms).log[j]? = some (l, f) ∧ P.Race (Par.exec P.cfg ms).log i j) ↔
    P.vis k = P.vis l ∨ ∃ n ∈ (P.cfg k).dag.nodes, ∃ m ∈ (P.cfg l).dag.nodes,
      (P.cfg k).dag.task n = (P.cfg l).dag.task m := by
  obtain ⟨sk, tk⟩ := C105_alone P.cfg ms k
  obtain ⟨sl, tl⟩ := C105_alone P.cfg ms l
  rw [sk] at hk
  rw [sl] at hl
  constructor
  · rintro ⟨i, j, e, f, hi, hj, h⟩
    obtain ⟨k', l', e', f', _, hi', hj', h⟩ := (C105_races P hwf hone ms i j).1 h
    rw [hi] at hi'; rw [hj] at hj'
    cases hi'; cases hj'
    rcases h with ⟨t, he, hf⟩ | ⟨hv, _⟩
    · have hi' := mem_part.2 (List.mem_of_getElem? hi)
      have hj' := mem_part.2 (List.mem_of_getElem? hj)
      rw [tk] at hi'
      rw [tl] at hj'
      obtain ⟨n, hn, h1⟩ := callsJob_node (hwf k) _ hi' he
      obtain ⟨m, hm, h2⟩ := callsJob_node (hwf l) _ hj' hf
      exact .inr ⟨n, hn, m, hm, h1.trans h2.symm⟩
    · exact .inl hv
  · have find : ∀ {k : Nat} {e : Event}, part k (Par.exec P.cfg ms).log =
        (exec (P.cfg k) (movesOf k ms)).trace → e ∈ (exec (P.cfg k) (movesOf k ms)).trace →
        ∃ i : Nat, (Par.exec P.cfg ms).log[i]? = some (k, e) := by
      intro k e h he
      rw [← h] at he
      exact List.getElem?_of_mem (mem_part.1 he)
    rintro (hv | ⟨n, hn, m, hm, ht⟩)
    · obtain ⟨i, hi⟩ := find tk ((tinv_exec (hwf k) _).isFinished hk)
      obtain ⟨j, hj⟩ := find tl ((tinv_exec (hwf l) _).isFinished hl)
      refine ⟨i, j, _, _, hi, hj, (C105_races P hwf hone ms i j).2
        ⟨k, l, _, _, hkl, hi, hj, .inr ⟨hv, ?_, ?_⟩⟩⟩ <;> simp [huse, printUses, Event.callback]
    · obtain ⟨e, he, hce⟩ := finished_asked (hwf k) _ hk hn
      obtain ⟨f, hf, hcf⟩ := finished_asked (hwf l) _ hl hm
      obtain ⟨i, hi⟩ := find tk he
      obtain ⟨j, hj⟩ := find tl hf
      exact ⟨i, j, _, _, hi, hj, (C105_races P hwf hone ms i j).2
        ⟨k, l, _, _, hkl, hi, hj, .inl ⟨_, hce, ht ▸ hcf⟩⟩⟩

/-- **C105** for task sets: executions of task sets which select different tasks, each with a visitor
of its own, have no data race. -/
theorem C105_sets {E : BEnv} (P : Program) (s : Nat → BSt) (tc : Nat → Nat)
    (ts : Nat → TaskSet) (filter : Nat → Str)
    (h : ∀ k, ∃ univ visit order, Run E (ts k) univ visit order (filter k) (s k))
    (hcfg : ∀ k, P.cfg k = execCfg E.store (s k).dag (tc k))
    (hsel : ∀ k l, k ≠ l → ∀ t, Selected E.store (ts k) (filter k) t →
      ¬ Selected E.store (ts l) (filter l) t)
    (hvis : ∀ k l, k ≠ l → P.vis k ≠ P.vis l) (ms : List (Nat × Move)) (i j : Nat) :
    ¬ P.Race (Par.exec P.cfg ms).log i j := by
  refine C105_partial P (fun k => ?_) (fun k => ?_) ?_ hvis ms i j
  · obtain ⟨_, _, _, h⟩ := h k
    rw [hcfg k]; exact h.wf (tc k)
  · obtain ⟨_, _, _, h⟩ := h k
    rw [hcfg k]
    exact fun _ ha _ hb hne he => absurd (h.taskInj ha hb he) hne
  · intro k l hkl n hn m hm he
    obtain ⟨_, _, _, hk⟩ := h k
    obtain ⟨_, _, _, hl⟩ := h l
    rw [hcfg k] at hn he
    rw [hcfg l] at hm he
    have h1 := (hk.nodes.2 _).1 (List.mem_map_of_mem hn)
    have h2 := (hl.nodes.2 _).1 (List.mem_map_of_mem hm)
    have he' : (s k).dag.task n = (s l).dag.task m := he
    rw [he'] at h1
    exact hsel k l hkl _ h1 h2

namespace Ex

/-- the same dag over tasks of its own, for each thread -/
def apart (k : Nat) : Cfg := { cfg 2 with dag := { dag with task := fun n => 10 * k + n } }

/-- every execution prints with the visitor it is given -/
def printing (vis : Nat → Nat) (C : Nat → Cfg) : Program :=
  { cfg := C, vis := vis, uses := fun _ => printUses fun _ => true }

/-- thread 1 executes its dag while thread 0 does, move by move -/
def both : List (Nat × Move) := done2.flatMap fun m => [(0, m), (1, m)]

theorem apart_wf (k : Nat) : (apart k).dag.WF := ⟨(wf 2).1, (wf 2).2⟩

theorem apart_tasks (k l : Nat) (hkl : k ≠ l) : ∀ n ∈ (apart k).dag.nodes,
    ∀ m ∈ (apart l).dag.nodes, (apart k).dag.task n ≠ (apart l).dag.task m := by
  have small : ∀ n ∈ dag.nodes, n < 10 := by decide
  have key : ∀ n m : Nat, n < 10 → m < 10 → 10 * k + n ≠ 10 * l + m := by omega
  exact fun n hn m hm => key n m (small n hn) (small m hm)

theorem apart_one (k : Nat) : OneAtATime (apart k) := by
  intro a _ b _ hne he
  exact absurd (Nat.add_left_cancel he) hne

theorem program_fin (P : Program) (k : Nat) (h : movesOf k both = done2)
    (hk : (exec (P.cfg k) done2).phase = .finished) :
    ((Par.exec P.cfg both).st k).phase = .finished := by
  rw [(C105_alone P.cfg both k).1, h]; exact hk

end Ex

/-- **C105** is false of the code: two threads each execute a dag of their own, which have no task in
common, with the default visitor; there is a data race. -/
theorem C105_counterexample : ∃ (C : Nat → Cfg) (ms : List (Nat × Move)) (i j : Nat),
    (∀ k, (C k).dag.WF) ∧ (∀ k, OneAtATime (C k)) ∧
    (∀ n ∈ (C 0).dag.nodes, ∀ m ∈ (C 1).dag.nodes, (C 0).dag.task n ≠ (C 1).dag.task m) ∧
    (Ex.printing (fun _ => 0) C).Race (Par.exec C ms).log i j := by
  refine ⟨Ex.apart, Ex.both, ?_⟩
  obtain ⟨i, j, _, _, _, _, h⟩ := (C105_exact (Ex.printing (fun _ => 0) Ex.apart) Ex.apart_wf
    Ex.apart_one (fun _ _ => true) (fun _ => rfl) Ex.both 0 1 (by decide)
    (Ex.program_fin _ 0 (by decide +kernel) (by decide +kernel))
    (Ex.program_fin _ 1 (by decide +kernel) (by decide +kernel))).2 (.inl rfl)
  exact ⟨i, j, Ex.apart_wf, Ex.apart_one, Ex.apart_tasks 0 1 (by decide), h⟩

/-- with a visitor each there is none; both executions are at work at the same time, on two worker
threads each, and finish -/
example : (∀ ms i j, ¬ (Ex.printing id Ex.apart).Race (Par.exec Ex.apart ms).log i j) ∧
    ((Par.exec (Ex.printing id Ex.apart).cfg Ex.both).st 0).phase = .finished ∧
    ((Par.exec (Ex.printing id Ex.apart).cfg Ex.both).st 1).phase = .finished :=
  ⟨C105_partial (Ex.printing id Ex.apart) Ex.apart_wf Ex.apart_one Ex.apart_tasks
      (fun _ _ h => h),
    Ex.program_fin (Ex.printing id Ex.apart) 0 (by decide +kernel) (by decide +kernel),
    Ex.program_fin (Ex.printing id Ex.apart) 1 (by decide +kernel) (by decide +kernel)⟩

/-- two executions of the same dag, each with a visitor of its own: a data race on the jobs -/
example : ∃ ms i j, (Ex.printing id fun _ => Ex.apart 0).Race
    (Par.exec (fun _ => Ex.apart 0) ms).log i j := by
  refine ⟨Ex.both, ?_⟩
  obtain ⟨i, j, _, _, _, _, h⟩ := (C105_exact (Ex.printing id fun _ => Ex.apart 0)
    (fun _ => Ex.apart_wf 0) (fun _ => Ex.apart_one 0) (fun _ _ => true) (fun _ => rfl) Ex.both 0 1
    (by decide) (Ex.program_fin _ 0 (by decide +kernel) (by decide +kernel))
    (Ex.program_fin _ 1 (by decide +kernel) (by decide +kernel))).2
    (.inr ⟨1, by decide, 1, by decide, rfl⟩)
  exact ⟨i, j, h⟩

end Joque
