import Verif.Model.Two
import Verif.Props.Exec4
import Verif.Props.Example

/-!
# C80: two executions at once

"Out of all tasks that reference single resource, only one may be executed at any point in time"
(include/joque/task.hpp:16-17).  True within one execution (C03); here for two executions of one
program, driven in turn by its control thread.
-/

namespace Joque

/-- the events of one of the executions -/
def side (i : Bool) (log : List (Bool × Event)) : List Event :=
  log.filterMap fun p => if p.1 = i then some p.2 else none

theorem side_append (i : Bool) (a b : List (Bool × Event)) : side i (a ++ b) = side i a ++ side i b :=
  List.filterMap_append

theorem side_same (i : Bool) (evs : List Event) : side i (evs.map (Prod.mk i)) = evs := by
  induction evs with
  | nil => rfl
  | cons e l ih => simp [side]

theorem side_other {i j : Bool} (h : i ≠ j) (evs : List Event) :
    side j (evs.map (Prod.mk i)) = [] := by
  induction evs with
  | nil => rfl
  | cons e l ih => simp [side, h]

/-- the history only grows -/
theorem step_grows (C : Cfg) (s : St) (m : Move) :
    (step C s m).trace = s.trace ++ (step C s m).trace.drop s.trace.length := by
  have key : ∀ evs : List Event, (step C s m).trace = s.trace ++ evs →
      (step C s m).trace = s.trace ++ (step C s m).trace.drop s.trace.length := by
    intro evs h; rw [h, List.drop_left]
  cases m with
  | ctl => obtain ⟨evs, h, _⟩ := ctl_events C s true; exact key evs h
  | ctlFail => obtain ⟨evs, h, _⟩ := ctl_events C s false; exact key evs h
  | fault f =>
    rcases fault_cases C s f with h1 | ⟨_, _, _, _, _, _, h2, h1⟩ | ⟨pre, e, post, _, h2, _, _, h1⟩ |
      ⟨_, _, h1⟩
    · obtain ⟨evs, h, _⟩ := ctl_events C s true
      exact key evs (by show (faultStep C s f).trace = _; rw [h1]; exact h)
    · exact key _ (by show (faultStep C s f).trace = _; rw [h1]; exact h2)
    · exact key _ (by show (faultStep C s f).trace = _; rw [h1])
    · exact key [] (by show (faultStep C s f).trace = _; rw [h1]; simp)
  | begin n =>
    simp only [step]
    split
    · simp
    · split <;> simp [St.emit]
  | finish n =>
    simp only [step]
    split
    · simp
    · split <;> simp [St.emit]
  | destroy => simp only [step, destroyStep]; split <;> simp

/-- the moves of one of the executions -/
def own (i : Bool) (ms : List (Bool × Move)) : List Move :=
  ms.filterMap fun p => if p.1 = i then some p.2 else none

theorem own_snoc (i j : Bool) (ms : List (Bool × Move)) (m : Move) :
    own i (ms ++ [(j, m)]) = own i ms ++ if j = i then [m] else [] := by
  unfold own
  rw [List.filterMap_append]
  by_cases h : j = i <;> simp [h]

/-- both are executions on their own, and the log is made of their histories -/
structure TwoInv (C D : Cfg) (ms : List (Bool × Move)) (w : Two) : Prop where
  fst : ∃ a, a.Sublist (own false ms) ∧ w.fst = exec C a
  snd : ∃ b, b.Sublist (own true ms) ∧ w.snd = exec D b
  logFst : side false w.log = w.fst.trace
  logSnd : side true w.log = w.snd.trace

theorem two_exec_snoc (C D : Cfg) (ms : List (Bool × Move)) (m : Bool × Move) :
    Two.exec C D (ms ++ [m]) = Two.step C D (Two.exec C D ms) m := by
  unfold Two.exec; rw [List.foldl_append]; rfl

theorem two_inv (C D : Cfg) (ms : List (Bool × Move)) : TwoInv C D ms (Two.exec C D ms) := by
  induction ms using List.reverseRecOn with
  | nil => exact ⟨⟨[], by simp [own], rfl⟩, ⟨[], by simp [own], rfl⟩, rfl, rfl⟩
  | append_singleton ms m ih =>
    rw [two_exec_snoc]
    obtain ⟨⟨a, ha, hA⟩, ⟨b, hb, hB⟩, h1, h2⟩ := ih
    obtain ⟨i, m⟩ := m
    have ha' : a.Sublist (own false (ms ++ [(i, m)])) := by
      rw [own_snoc]; exact ha.trans (List.sublist_append_left _ _)
    have hb' : b.Sublist (own true (ms ++ [(i, m)])) := by
      rw [own_snoc]; exact hb.trans (List.sublist_append_left _ _)
    cases i with
    | false =>
      simp only [Two.step]
      split
      · exact ⟨⟨a, ha', hA⟩, ⟨b, hb', hB⟩, h1, h2⟩
      · refine ⟨⟨a ++ [m], ?_, by rw [exec_append, ← hA]; rfl⟩, ⟨b, hb', hB⟩, ?_, ?_⟩
        · rw [own_snoc]; exact ha.append (by simp)
        · rw [side_append, side_same, h1]; exact (step_grows C _ m).symm
        · rw [side_append, side_other (by simp), List.append_nil, h2]
    | true =>
      simp only [Two.step]
      split
      · exact ⟨⟨a, ha', hA⟩, ⟨b, hb', hB⟩, h1, h2⟩
      · refine ⟨⟨a, ha', hA⟩, ⟨b ++ [m], ?_, by rw [exec_append, ← hB]; rfl⟩, ?_, ?_⟩
        · rw [own_snoc]; exact hb.append (by simp)
        · rw [side_append, side_other (by simp), List.append_nil, h1]
        · rw [side_append, side_same, h2]; exact (step_grows D _ m).symm

/-- **C80**, part 1.  Each of the two executions is an execution as if it were alone: with some of
its own moves, in order (those of the control thread that came while it was inside the other one
are not possible).  So everything proved of one execution holds for each of them. -/
theorem C80_alone (C D : Cfg) (ms : List (Bool × Move)) :
    ∃ a b, a.Sublist (own false ms) ∧ b.Sublist (own true ms) ∧
      (Two.exec C D ms).fst = exec C a ∧ side false (Two.exec C D ms).log = (exec C a).trace ∧
      (Two.exec C D ms).snd = exec D b ∧ side true (Two.exec C D ms).log = (exec D b).trace := by
  obtain ⟨⟨a, ha, hA⟩, ⟨b, hb, hB⟩, h1, h2⟩ := two_inv C D ms
  exact ⟨a, b, ha, hb, hA, by rw [h1, hA], hB, by rw [h2, hB]⟩

/-- **C80**, part 2.  In particular their results do not influence each other: the records of the
first agree with those of any execution of the same dag alone. -/
theorem C80_same_results (C D : Cfg) (hwf : C.dag.WF)
    (hra : ∀ a b, HasEdge C.dag .requires a b → AfterEdge C.dag a b)
    (ms : List (Bool × Move)) (ms' : List Move) (r r' : RunRecord)
    (hr : r ∈ recsOf (side false (Two.exec C D ms).log)) (hr' : r' ∈ recsOf (exec C ms').trace)
    (hn : r'.node = r.node) :
    r.status = r'.status ∧ r.retcode = r'.retcode ∧ r.output = r'.output := by
  obtain ⟨a, b, _, _, _, h1, _, _⟩ := C80_alone C D ms
  rw [h1] at hr
  exact C07_schedule_independence C C id hwf hwf ⟨fun _ _ _ h => h, fun _ _ c _ h => ⟨c, h, rfl⟩, fun _ _ => rfl, fun _ _ => rfl⟩
    hra hra a ms' r r' hr hr' hn

/-- **C80**, part 3.  The jobs of one execution never wait for the other one: whatever the control
thread is doing (it may be inside the other execution), a worker's move has the effect it has when
the execution is alone; and so has a `tick()` made between those of the other one. -/
theorem C80_progress (C D : Cfg) (ms : List (Bool × Move)) (m : Move)
    (hm : (∃ n, m = .begin n ∨ m = .finish n) ∨ (Two.exec C D ms).snd.phase ∈
      [.created, .susp true, .susp false, .finished, .destroyed] ∨
      ∃ e, (Two.exec C D ms).snd.phase = .threw e) :
    (Two.exec C D (ms ++ [(false, m)])).fst = step C (Two.exec C D ms).fst m ∧
    (Two.exec C D (ms ++ [(false, m)])).snd = (Two.exec C D ms).snd := by
  rw [two_exec_snoc]
  have h : (m.control && !(Two.exec C D ms).snd.phase.between) = false := by
    rcases hm with ⟨n, rfl | rfl⟩ | h | ⟨e, h⟩
    · rfl
    · rfl
    · simp only [List.mem_cons, List.not_mem_nil, or_false] at h
      rcases h with h | h | h | h | h <;> simp [h, Phase.between]
    · simp [h, Phase.between]
  simp [Two.step, h]

/-- **C80**, part 4.  The control thread is in one place: while it is inside a `tick()` or a destructor of one
execution, the other one gets no further, except for its jobs. -/
theorem C80_turns (C D : Cfg) (ms : List (Bool × Move)) (i : Bool) (m : Move)
    (hin : ∃ p, (if i then (Two.exec C D ms).fst else (Two.exec C D ms).snd).phase = p ∧
      (p ∈ [.loopTop, .clean true, .clean false, .pick, .drainTop, .destroying] ∨ ∃ e, p = .unwinding e))
    (hm : m ∈ [.ctl, .ctlFail, .destroy] ∨ ∃ f, m = .fault f) :
    Two.exec C D (ms ++ [(i, m)]) = Two.exec C D ms := by
  rw [two_exec_snoc]
  obtain ⟨p, hp, hin⟩ := hin
  have hc : m.control = true := by
    simp only [List.mem_cons, List.not_mem_nil, or_false] at hm
    rcases hm with (rfl | rfl | rfl) | ⟨f, rfl⟩ <;> rfl
  have hb : p.between = false := by
    simp only [List.mem_cons, List.not_mem_nil, or_false] at hin
    rcases hin with (rfl | rfl | rfl | rfl | rfl | rfl) | ⟨e, rfl⟩ <;> rfl
  cases i <;> simp only [Bool.false_eq_true, if_false, if_true] at hp <;> simp [Two.step, hc, hp, hb]

/-- **C80_partial**: if both have `thread_count` 0, at most one job of both executions together is
executing at any moment, so tasks with a common resource never are. -/
theorem C80_partial (C D : Cfg) (hwf : C.dag.WF) (hwf' : D.dag.WF) (h0 : C.threadCount = 0)
    (h0' : D.threadCount = 0) (ms : List (Bool × Move)) (pre post : List (Bool × Event))
    (hlog : (Two.exec C D ms).log = pre ++ post) (i j : Bool) (n m : Node)
    (hi : Running (side i pre) n) (hj : Running (side j pre) m) : i = j ∧ n = m := by
  have one : ∀ (E : Cfg), E.dag.WF → E.threadCount = 0 → ∀ es p q, (exec E es).trace = p ++ q →
      ∀ x y, Running p x → Running p y → x = y := by
    intro E hE h es p q htr x y hx hy
    by_contra hne
    have := (C04_thread_limit E hE es p q htr).1 [x, y] (by simp [hne]) (by simp [hx, hy])
    rw [if_pos h] at this
    simp at this
  have hq : ∀ ms x, ¬ Running (side false (Two.exec C D ms).log) x := by
    intro ms x
    obtain ⟨⟨a, _, hA⟩, _, h, _⟩ := two_inv C D ms
    rw [h, hA]; exact C04_sequential C hwf h0 a x
  have hq' : ∀ ms x, ¬ Running (side true (Two.exec C D ms).log) x := by
    intro ms x
    obtain ⟨_, ⟨b, _, hB⟩, _, h⟩ := two_inv C D ms
    rw [h, hB]; exact C04_sequential D hwf' h0' b x
  have hone : ∀ i, ∀ x y, Running (side i pre) x → Running (side i pre) y → x = y := by
    obtain ⟨⟨a, _, hA⟩, ⟨b, _, hB⟩, h1, h2⟩ := two_inv C D ms
    rw [hlog, side_append] at h1 h2
    intro i
    cases i with
    | false => exact one C hwf h0 a _ _ (by rw [← hA, ← h1])
    | true => exact one D hwf' h0' b _ _ (by rw [← hB, ← h2])
  have hside : (∀ x, ¬ Running (side false pre) x) ∨ (∀ x, ¬ Running (side true pre) x) := by
    clear hi hj hone
    induction ms using List.reverseRecOn generalizing pre post with
    | nil =>
      have : ([] : List (Bool × Event)) = pre ++ post := hlog
      obtain ⟨rfl, -⟩ := List.append_eq_nil_iff.1 this.symm
      exact .inl (hq [])
    | append_singleton ms mv ih =>
      rw [two_exec_snoc] at hlog
      obtain ⟨k, m⟩ := mv
      have hgrow : ∃ evs : List Event, (Two.step C D (Two.exec C D ms) (k, m)).log =
          (Two.exec C D ms).log ++ evs.map (Prod.mk k) := by
        cases k <;> simp only [Two.step] <;> split
        · exact ⟨[], by simp⟩
        · exact ⟨_, rfl⟩
        · exact ⟨[], by simp⟩
        · exact ⟨_, rfl⟩
      obtain ⟨evs, he⟩ := hgrow
      rw [he] at hlog
      rcases List.append_eq_append_iff.1 hlog with ⟨as, hp, has⟩ | ⟨bs, hp, _⟩
      · obtain ⟨e1, e2, -, he1, -⟩ := List.map_eq_append_iff.1 has
        rw [hp, ← he1]
        cases k with
        | false =>
          right; intro x
          rw [side_append, side_other (by simp), List.append_nil]; exact hq' ms x
        | true =>
          left; intro x
          rw [side_append, side_other (by simp), List.append_nil]; exact hq ms x
      · exact ih pre bs hp
  cases i <;> cases j
  · exact ⟨rfl, hone _ _ _ hi hj⟩
  · rcases hside with h | h
    · exact absurd hi (h _)
    · exact absurd hj (h _)
  · rcases hside with h | h
    · exact absurd hj (h _)
    · exact absurd hi (h _)
  · exact ⟨rfl, hone _ _ _ hi hj⟩

/-! ### Exactly when two jobs are executed at once -/

theorem two_run_snd (C D : Cfg) : ∀ (b : List Move) (w : Two), w.fst.phase.between = true →
    ∃ evs : List Event, (b.map (Prod.mk true)).foldl (Two.step C D) w =
        ⟨w.fst, b.foldl (step D) w.snd, w.log ++ evs.map (Prod.mk true)⟩ ∧
      (b.foldl (step D) w.snd).trace = w.snd.trace ++ evs := by
  intro b
  induction b with
  | nil => intro w _; exact ⟨[], by simp, by simp⟩
  | cons m b ih =>
    intro w hw
    obtain ⟨evs, h1, h2⟩ := ih (Two.step C D w (true, m)) (by simp [Two.step, hw])
    have hs : Two.step C D w (true, m) = ⟨w.fst, step D w.snd m, w.log ++
        ((step D w.snd m).trace.drop w.snd.trace.length).map (Prod.mk true)⟩ := by
      simp [Two.step, hw]
    rw [hs] at h1 h2
    refine ⟨(step D w.snd m).trace.drop w.snd.trace.length ++ evs, ?_, ?_⟩
    · simp only [List.map_cons, List.foldl_cons, hs, h1, List.map_append, List.append_assoc]
    · rw [List.foldl_cons, h2, ← List.append_assoc, ← step_grows]

theorem two_run_fst (C D : Cfg) : ∀ (a : List Move) (w : Two), w.snd.phase.between = true →
    ∃ evs : List Event, (a.map (Prod.mk false)).foldl (Two.step C D) w =
        ⟨a.foldl (step C) w.fst, w.snd, w.log ++ evs.map (Prod.mk false)⟩ ∧
      (a.foldl (step C) w.fst).trace = w.fst.trace ++ evs := by
  intro a
  induction a with
  | nil => intro w _; exact ⟨[], by simp, by simp⟩
  | cons m a ih =>
    intro w hw
    obtain ⟨evs, h1, h2⟩ := ih (Two.step C D w (false, m)) (by simp [Two.step, hw])
    have hs : Two.step C D w (false, m) = ⟨step C w.fst m, w.snd, w.log ++
        ((step C w.fst m).trace.drop w.fst.trace.length).map (Prod.mk false)⟩ := by
      simp [Two.step, hw]
    rw [hs] at h1 h2
    refine ⟨(step C w.fst m).trace.drop w.fst.trace.length ++ evs, ?_, ?_⟩
    · simp only [List.map_cons, List.foldl_cons, hs, h1, List.map_append, List.append_assoc]
    · rw [List.foldl_cons, h2, ← List.append_assoc, ← step_grows]

theorem worker_step (C : Cfg) (s : St) (m : Move) (hm : m.control = false) :
    (step C s m).phase = s.phase ∧ ((step C s m).trace.drop s.trace.length).length ≤ 1 := by
  cases m with
  | begin n => simp only [step]; split; · simp
               split <;> simp [St.emit]
  | finish n => simp only [step]; split; · simp
                split <;> simp [St.emit]
  | _ => cases hm

theorem two_between (C D : Cfg) (ms : List (Bool × Move)) :
    (Two.exec C D ms).fst.phase.between = true ∨ (Two.exec C D ms).snd.phase.between = true := by
  induction ms using List.reverseRecOn with
  | nil => exact .inl rfl
  | append_singleton ms mv ih =>
    rw [two_exec_snoc]
    obtain ⟨k, m⟩ := mv
    cases hm : m.control
    · cases k <;> simp only [Two.step, hm, Bool.false_and, Bool.false_eq_true, if_false]
      · rw [(worker_step C _ m hm).1]; exact ih
      · rw [(worker_step D _ m hm).1]; exact ih
    · cases k <;> simp only [Two.step, hm, Bool.true_and] <;> split <;> rename_i h
      · exact ih
      · right; simpa using h
      · exact ih
      · left; simpa using h

/-- **C80_exact**.  Job `n` of the first execution and job `m` of the second can be executing at
the same moment exactly if one of the two can be executing between the ticks of its execution (so,
on a thread), and the other one can be executing at all. -/
theorem C80_exact (C D : Cfg) (n m : Node) :
    (∃ ms pre post, (Two.exec C D ms).log = pre ++ post ∧ Running (side false pre) n ∧
      Running (side true pre) m) ↔
    ((∃ a, (exec C a).phase.between = true ∧ Running (exec C a).trace n) ∧
      (∃ b pre post, (exec D b).trace = pre ++ post ∧ Running pre m)) ∨
    ((∃ a pre post, (exec C a).trace = pre ++ post ∧ Running pre n) ∧
      (∃ b, (exec D b).phase.between = true ∧ Running (exec D b).trace m)) := by
  constructor
  · rintro ⟨ms, pre, post, hlog, hn, hm⟩
    have hA : ∃ a pre post, (exec C a).trace = pre ++ post ∧ Running pre n := by
      obtain ⟨⟨a, _, hA⟩, _, h1, _⟩ := two_inv C D ms
      rw [hlog, side_append] at h1
      exact ⟨a, _, _, by rw [← hA, ← h1], hn⟩
    have hB : ∃ b pre post, (exec D b).trace = pre ++ post ∧ Running pre m := by
      obtain ⟨_, ⟨b, _, hB⟩, _, h1⟩ := two_inv C D ms
      rw [hlog, side_append] at h1
      exact ⟨b, _, _, by rw [← hB, ← h1], hm⟩
    suffices h : (∃ a, (exec C a).phase.between = true ∧ Running (exec C a).trace n) ∨
        (∃ b, (exec D b).phase.between = true ∧ Running (exec D b).trace m) by
      rcases h with h | h
      · exact .inl ⟨h, hB⟩
      · exact .inr ⟨hA, h⟩
    clear hA hB
    have full : ∀ ms, Running (side false (Two.exec C D ms).log) n →
        Running (side true (Two.exec C D ms).log) m →
        (∃ a, (exec C a).phase.between = true ∧ Running (exec C a).trace n) ∨
        (∃ b, (exec D b).phase.between = true ∧ Running (exec D b).trace m) := by
      intro ms hn hm
      obtain ⟨⟨a, _, hA⟩, ⟨b, _, hB⟩, h1, h2⟩ := two_inv C D ms
      rw [h1, hA] at hn
      rw [h2, hB] at hm
      rcases two_between C D ms with h | h
      · exact .inl ⟨a, hA ▸ h, hn⟩
      · exact .inr ⟨b, hB ▸ h, hm⟩
    induction ms using List.reverseRecOn generalizing pre post with
    | nil =>
      have : ([] : List (Bool × Event)) = pre ++ post := hlog
      obtain ⟨rfl, -⟩ := List.append_eq_nil_iff.1 this.symm
      exact full [] hn hm
    | append_singleton ms mv ih =>
      have hfull := full (ms ++ [mv])
      rw [two_exec_snoc] at hlog hfull
      obtain ⟨k, mv⟩ := mv
      have hgrow : (Two.step C D (Two.exec C D ms) (k, mv)).log = (Two.exec C D ms).log ∨
          ∃ evs : List Event, (Two.step C D (Two.exec C D ms) (k, mv)).log =
          (Two.exec C D ms).log ++ evs.map (Prod.mk k) ∧ (evs.length ≤ 1 ∨
            (if k then (Two.exec C D ms).fst else (Two.exec C D ms).snd).phase.between = true) := by
        cases hc : mv.control
        · right
          cases k <;> simp only [Two.step, hc, Bool.false_and, Bool.false_eq_true, if_false]
          · exact ⟨_, rfl, .inl (worker_step C _ mv hc).2⟩
          · exact ⟨_, rfl, .inl (worker_step D _ mv hc).2⟩
        · cases k <;> simp only [Two.step, hc, Bool.true_and] <;> split <;> rename_i h
          · exact .inl rfl
          · exact .inr ⟨_, rfl, .inr (by simpa using h)⟩
          · exact .inl rfl
          · exact .inr ⟨_, rfl, .inr (by simpa using h)⟩
      rcases hgrow with he | ⟨evs, he, hb⟩
      · exact ih pre post (he ▸ hlog) hn hm
      · rw [he] at hlog
        rcases List.append_eq_append_iff.1 hlog with ⟨as, hp, has⟩ | ⟨bs, hp, _⟩
        · obtain ⟨e1, e2, hee, he1, he2⟩ := List.map_eq_append_iff.1 has
          rcases hb with hb | hb
          · cases e1 with
            | nil => 
              have hp : pre = (Two.exec C D ms).log := by rw [hp, ← he1]; simp
              exact ih pre [] (by rw [hp]; simp) hn hm
            | cons e e1 =>
              have : e2 = [] := by
                rw [hee, List.length_append, List.length_cons] at hb
                exact List.eq_nil_of_length_eq_zero (by omega)
              have hp : pre = (Two.step C D (Two.exec C D ms) (k, mv)).log := by
                rw [he, hp, ← he1, hee, this]; simp
              exact hfull (hp ▸ hn) (hp ▸ hm)
          · obtain ⟨⟨a, _, hA⟩, ⟨b, _, hB⟩, h1, h2⟩ := two_inv C D ms
            rw [hp, ← he1, side_append] at hn hm
            cases k with
            | false =>
              rw [side_other (by simp), List.append_nil, h2, hB] at hm
              exact .inr ⟨b, by simpa [hB] using hb, hm⟩
            | true =>
              rw [side_other (by simp), List.append_nil, h1, hA] at hn
              exact .inl ⟨a, by simpa [hA] using hb, hn⟩
        · exact ih pre bs hp hn hm
  · rintro (⟨⟨a, ha, hn⟩, b, p, q, hb, hm⟩ | ⟨⟨a, p, q, ha, hn⟩, b, hb, hm⟩)
    · obtain ⟨e1, h1, t1⟩ := two_run_fst C D a Two.init rfl
      obtain ⟨e2, h2, t2⟩ := two_run_snd C D b
        ⟨a.foldl (step C) Two.init.fst, Two.init.snd, Two.init.log ++ e1.map (Prod.mk false)⟩ ha
      have t1 : (exec C a).trace = e1 := by
        have : (exec C a).trace = [] ++ e1 := t1
        simpa using this
      have t2 : (exec D b).trace = e2 := by
        have : (exec D b).trace = [] ++ e2 := t2
        simpa using this
      refine ⟨a.map (Prod.mk false) ++ b.map (Prod.mk true), e1.map (Prod.mk false) ++
        p.map (Prod.mk true), q.map (Prod.mk true), ?_, ?_, ?_⟩
      · unfold Two.exec
        rw [List.foldl_append, h1, h2]
        show [] ++ e1.map (Prod.mk false) ++ e2.map (Prod.mk true) = _
        rw [← t2, hb]; simp
      · rw [side_append, side_same, side_other (by simp), List.append_nil, ← t1]; exact hn
      · rw [side_append, side_same, side_other (by simp), List.nil_append]; exact hm
    · obtain ⟨e2, h2, t2⟩ := two_run_snd C D b Two.init rfl
      obtain ⟨e1, h1, t1⟩ := two_run_fst C D a
        ⟨Two.init.fst, b.foldl (step D) Two.init.snd, Two.init.log ++ e2.map (Prod.mk true)⟩ hb
      have t1 : (exec C a).trace = e1 := by
        have : (exec C a).trace = [] ++ e1 := t1
        simpa using this
      have t2 : (exec D b).trace = e2 := by
        have : (exec D b).trace = [] ++ e2 := t2
        simpa using this
      refine ⟨b.map (Prod.mk true) ++ a.map (Prod.mk false), e2.map (Prod.mk true) ++
        p.map (Prod.mk false), q.map (Prod.mk false), ?_, ?_, ?_⟩
      · unfold Two.exec
        rw [List.foldl_append, h2, h1]
        show [] ++ e2.map (Prod.mk true) ++ e1.map (Prod.mk false) = _
        rw [← t1, ha]; simp
      · rw [side_append, side_same, side_other (by simp), List.nil_append]; exact hn
      · rw [side_append, side_same, side_other (by simp), List.append_nil, ← t2]; exact hm

/-- the first execution has launched task 1 on its thread -/
def Ex.busy1 : List Move := List.replicate 10 .ctl ++ [.begin 1]

/-- **C80_counterexample**.  Two executions of the same tasks, the first with one thread, the second
on the control thread: a task is executed in the first while a task with the same resource is
executed in the second. -/
theorem C80_counterexample : ∃ C D : Cfg, ∃ n m r, C.dag.WF ∧ D.dag.WF ∧ C.threadCount = 1 ∧
    D.threadCount = 0 ∧ r ∈ C.resources n ∧ r ∈ D.resources m ∧
    ∃ ms pre post, (Two.exec C D ms).log = pre ++ post ∧ Running (side false pre) n ∧
      Running (side true pre) m := by
  refine ⟨Ex.cfg 1, Ex.cfg 0, 1, 1, 7, Ex.wf 1, Ex.wf 0, rfl, rfl, by decide, by decide,
    (C80_exact _ _ _ _).2 (.inl ⟨⟨Ex.busy1, by decide +kernel, ?_⟩, Ex.done0,
      (exec (Ex.cfg 0) Ex.done0).trace.take 16, (exec (Ex.cfg 0) Ex.done0).trace.drop 16,
      (List.take_append_drop _ _).symm, ?_⟩)⟩
  · exact ⟨⟨false, by decide +kernel⟩, by unfold JobEnded; decide +kernel⟩
  · exact ⟨⟨true, by decide +kernel⟩, by unfold JobEnded; decide +kernel⟩

/-- two executions in turn on the control thread, both to their end -/
example : (Ex.cfg 0).threadCount = 0 ∧
    (let w := Two.exec (Ex.cfg 0) (Ex.cfg 0)
      (List.replicate 4 (false, .ctl) ++ List.replicate 4 (true, .ctl) ++
        List.replicate 27 (false, .ctl) ++ List.replicate 27 (true, .ctl))
     (recsOf (side false w.log)).length = 5 ∧ (recsOf (side true w.log)).length = 5 ∧
      (side true (w.log.take 20)) ≠ [] ∧ (side false (w.log.drop 20)) ≠ []) := by
  decide +kernel

end Joque
