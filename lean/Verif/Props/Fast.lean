import Verif.Props.OneWorker
import Verif.Props.SeqOrder
import Verif.Props.Deliver
import Verif.Props.Pace

/-! # Threads that are fast enough (C115) -/

namespace Joque

variable {C : Cfg}

/-- The control thread never goes on before every job that was given to a thread has ended. -/
def FastThreads (C : Cfg) (ms : List Move) : Prop :=
  ∀ i, ms[i]? = some .ctl → AllEnded (exec C (ms.take i)).trace

theorem FastThreads.init {ms : List Move} {m : Move} (h : FastThreads C (ms ++ [m])) : FastThreads C ms := by
  intro i hi
  have hl : i < ms.length := (List.getElem?_eq_some_iff.1 hi).1
  have := h i (by rw [List.getElem?_append_left hl]; exact hi)
  rwa [List.take_append_of_le_length (by omega)] at this

theorem FastThreads.last {ms : List Move} (h : FastThreads C (ms ++ [.ctl])) : AllEnded (exec C ms).trace := by
  have := h ms.length (by simp)
  rwa [List.take_left] at this

theorem FastThreads.snoc {ms : List Move} (h : FastThreads C ms) {m : Move}
    (hm : m = .ctl → AllEnded (exec C ms).trace) : FastThreads C (ms ++ [m]) := by
  intro i hi
  by_cases hl : i < ms.length
  · rw [List.getElem?_append_left hl] at hi
    rw [List.take_append_of_le_length (by omega)]
    exact h i hi
  · have hl' : ms.length ≤ i := Nat.le_of_not_lt hl
    rw [List.getElem?_append_right hl'] at hi
    have h0 : i - ms.length = 0 := by
      by_contra hne
      rw [List.getElem?_eq_none (by simp; omega)] at hi
      cases hi
    rw [h0] at hi
    have he : i = ms.length := by omega
    rw [he, List.take_left]
    exact hm (by simpa using hi)

theorem prologue_ticks (C : Cfg) (s : St) :
    (prologue C s).trace = s.trace ++ (prologue C { St.init with flags := s.flags }).trace := by
  unfold prologue
  dsimp only
  split <;> try simp [St.init]
  split <;> simp

/-- how many resumptions a portion of the control thread begins with -/
theorem ctl_ticks (C : Cfg) (s : St) :
    ticks (ctlStep C s true).trace = ticks s.trace +
      match s.phase with
      | .created => ticks (prologue C { St.init with flags := s.flags }).trace
      | .susp _ => 1
      | _ => 0 := by
  cases hp : s.phase with
  | created =>
    have e : ctlStep C s true = prologue C s := by unfold ctlStep; rw [hp]
    rw [e, prologue_ticks, ticks_append]
  | susp d =>
    unfold ctlStep; rw [hp]
    show ticks (s.trace ++ [.resumed]) = _
    rw [ticks_append]; rfl
  | clean d =>
    have e : ctlStep C s true = cleanStep C s true d := by unfold ctlStep; rw [hp]
    rw [e, clean_ticks true hp]; rfl
  | _ =>
    obtain ⟨evs, e1, e2⟩ := ctl_events C s true
    have hev : Event.resumed ∉ evs := by
      generalize (ctlStep C s true).phase = p at e2
      cases e2 with
      | prologue _ h => rw [hp] at h; cases h
      | resumed _ h => rw [hp] at h; cases h
      | _ => simp
    rw [e1, ticks_append, ticks_zero hev]

/-- the job of `n` was just given to a thread -/
def JustLaunched (C : Cfg) (s0 s1 : St) : Prop :=
  ∃ r n d h, Flight C r n d h s0 s1 ∧ s1.phase = .clean d ∧ s1.todo = [⟨r, h⟩] ∧ s1.kept = [] ∧ s1.passed = []

theorem Launched.just {s0 s1 : St} (h : Launched C s0 s1) : JustLaunched C s0 s1 := by
  obtain ⟨r, n, d, h, h1, h2, h3, h4, h5, -⟩ := h
  exact ⟨r, n, d, h, h1, h2, h3, h4, h5⟩

/-- a portion of the control thread -/
theorem fast_ctl {t : Nat} (h0 : t ≠ 0) {s0 s1 : St} (h : Even s0 s1)
    (ht : ticks s1.trace = ticks s0.trace) :
    (Even (ctlStep (C.withThreads 0) s0 true) (ctlStep (C.withThreads t) s1 true) ∧
      ticks (ctlStep (C.withThreads t) s1 true).trace = ticks (ctlStep (C.withThreads 0) s0 true).trace) ∨
    (Launched C s0 (ctlStep (C.withThreads t) s1 true) ∧
      ticks (ctlStep (C.withThreads t) s1 true).trace = ticks s0.trace) := by
  cases h with
  | twin h =>
    have hpp : ∀ f, prologue (C.withThreads t) { St.init with flags := f } =
        prologue (C.withThreads 0) { St.init with flags := f } := fun f => rfl
    rcases twin_ctl h0 h with h' | h'
    · refine .inl ⟨h', ?_⟩
      rw [ctl_ticks, ctl_ticks, ht, h.phase, h.flags, hpp]
    · refine .inr ⟨h', ?_⟩
      obtain ⟨r, n, d, x, hf, -⟩ := h'
      rw [ctl_ticks, ht, h.phase, hf.p0]; rfl
  | ub h =>
    have e1 : ctlStep (C.withThreads t) s1 true = s1 := by unfold ctlStep; rw [h.p1]
    have e0 : ctlStep (C.withThreads 0) s0 true = s0 := by unfold ctlStep; rw [h.p0]
    rw [e0, e1]
    exact .inl ⟨.ub h, ht⟩

theorem worker_ticks (C : Cfg) (s : St) {m : Move} {k : Node} (hm : m = .begin k ∨ m = .finish k) :
    ticks (step C s m).trace = ticks s.trace := by
  rcases hm with rfl | rfl <;> (unfold step; dsimp only; split; · rfl)
  · split
    · show ticks (s.trace ++ [_]) = _
      rw [ticks_append]; rfl
    · rfl
  · split
    · show ticks (s.trace ++ [_]) = _
      rw [ticks_append]; rfl
    · rfl

/-- fast threads: both are at the same point, but for the job that was just given to a thread -/
theorem fast_exec (hwf : C.dag.WF) {t : Nat} (h0 : t ≠ 0) : ∀ ms : List Move, (∀ m ∈ ms, m.regular = true) →
    FastThreads (C.withThreads t) ms →
    ∃ k, (Even (exec (C.withThreads 0) (List.replicate k .ctl)) (exec (C.withThreads t) ms) ∨
        JustLaunched C (exec (C.withThreads 0) (List.replicate k .ctl)) (exec (C.withThreads t) ms)) ∧
      ticks (exec (C.withThreads t) ms).trace = ticks (exec (C.withThreads 0) (List.replicate k .ctl)).trace := by
  intro ms
  induction ms using List.reverseRecOn with
  | nil => exact fun _ _ => ⟨0, .inl (.twin twin_init), rfl⟩
  | append_singleton ms m ih =>
    intro hms hfast
    obtain ⟨k, hk, htk⟩ := ih (fun x hx => hms x (List.mem_append_left _ hx)) hfast.init
    have hreg := hms m (by simp)
    have e0 : exec (C.withThreads 0) (List.replicate (k + 1) .ctl) =
        ctlStep (C.withThreads 0) (exec (C.withThreads 0) (List.replicate k .ctl)) true := by
      rw [List.replicate_succ', exec_snoc]; rfl
    have hworker : ∀ j, m = .begin j ∨ m = .finish j → ∃ k,
        (Even (exec (C.withThreads 0) (List.replicate k .ctl)) (exec (C.withThreads t) (ms ++ [m])) ∨
          JustLaunched C (exec (C.withThreads 0) (List.replicate k .ctl)) (exec (C.withThreads t) (ms ++ [m]))) ∧
        ticks (exec (C.withThreads t) (ms ++ [m])).trace =
          ticks (exec (C.withThreads 0) (List.replicate k .ctl)).trace := by
      intro j hj
      refine ⟨k, ?_, by rw [exec_snoc, worker_ticks _ _ hj, htk]⟩
      rw [exec_snoc]
      rcases hk with hk | ⟨r, n, d, h, hf, hp, ht, hkp, hps⟩
      · rw [even_worker hk hj]; exact .inl hk
      · right
        rcases hj with rfl | rfl
        · refine ⟨r, n, d, h, flight_begin hf j, ?_⟩
          unfold step; dsimp only
          split
          · exact ⟨hp, ht, hkp, hps⟩
          · split <;> exact ⟨hp, ht, hkp, hps⟩
        · refine ⟨r, n, d, h, flight_finish hf j, ?_⟩
          unfold step; dsimp only
          split
          · exact ⟨hp, ht, hkp, hps⟩
          · split <;> exact ⟨hp, ht, hkp, hps⟩
    cases m with
    | ctl =>
      rcases hk with hk | ⟨r, n, d, h, hf, hp, ht, hkp, hps⟩
      · rcases fast_ctl (C := C) h0 hk htk with ⟨h1, h2⟩ | ⟨h1, h2⟩
        · refine ⟨k + 1, .inl ?_, ?_⟩
          · rw [e0, exec_snoc]; exact h1
          · rw [e0, exec_snoc]; exact h2
        · refine ⟨k, .inr ?_, ?_⟩
          · rw [exec_snoc]; exact h1.just
          · rw [exec_snoc]; exact h2
      · have hwf' : (C.withThreads t).dag.WF := hwf
        obtain ⟨hI, hT⟩ := both_exec hwf' ms
        have hact : (exec (C.withThreads t) ms).phase.active = true := by rw [hp]; rfl
        have hmem : h ∈ handles (exec (C.withThreads t) ms) := by unfold handles; rw [ht]; simp
        have hlife := hT.life_launched hact hmem hf.launched
        have hw : (exec (C.withThreads t) ms).worker n = .finished := by
          by_contra hne
          have hne' := not_ended hT hact hmem hf.launched (by rw [hf.node]; exact hne)
          apply hne'
          refine hfast.last h.node (launch_mem_life.2 ?_)
          rw [hlife]
          cases (exec (C.withThreads t) ms).worker h.node <;> simp [workerLife]
        refine ⟨k + 1, .inl ?_, ?_⟩
        · rw [e0, exec_snoc]; exact flight_collect hf hp ht hkp hps hw
        · rw [e0, exec_snoc]
          show ticks (ctlStep _ _ true).trace = _
          rw [ctl_ticks, ctl_ticks, hp, hf.p0, htk]
    | begin j => exact hworker j (.inl rfl)
    | finish j => exact hworker j (.inr rfl)
    | ctlFail => cases hreg
    | fault f => cases hreg
    | destroy => cases hreg

/-- **C115**: with threads that are fast enough an execution that is over made the same calls in the same
order and in as many ticks, ran the same jobs between the same calls and returned the same records as
the execution with `thread_count = 0`, apart from times and the thread a job runs on. -/
theorem C115_same (C : Cfg) (hwf : C.dag.WF) (t : Nat) (h0 : t ≠ 0) (ms : List Move)
    (hms : ∀ m ∈ ms, m = .ctl ∨ ∃ n, m = .begin n ∨ m = .finish n)
    (hfast : FastThreads { C with threadCount := t } ms)
    (hp : (exec { C with threadCount := t } ms).phase = .finished ∨
      ∃ e, (exec { C with threadCount := t } ms).phase = .threw e) :
    ∃ k, (exec { C with threadCount := t } ms).phase =
        (exec { C with threadCount := 0 } (List.replicate k .ctl)).phase ∧
      untimed (exec { C with threadCount := t } ms).trace =
        untimed (exec { C with threadCount := 0 } (List.replicate k .ctl)).trace ∧
      ticks (exec { C with threadCount := t } ms).trace =
        ticks (exec { C with threadCount := 0 } (List.replicate k .ctl)).trace ∧
      (exec { C with threadCount := t } ms).erec.untimed =
        (exec { C with threadCount := 0 } (List.replicate k .ctl)).erec.untimed := by
  obtain ⟨k, hk, ht⟩ := fast_exec hwf h0 ms (fun m hm => by
    rcases hms m hm with rfl | ⟨n, rfl | rfl⟩ <;> rfl) hfast
  change (exec (C.withThreads t) ms).phase = _ ∨ ∃ e, (exec (C.withThreads t) ms).phase = _ at hp
  rcases hk with hk | ⟨r, n, d, h, hf, h1, -⟩
  · cases hk with
    | twin h => exact ⟨k, h.phase, h.trace, ht, h.erec⟩
    | ub h => rw [h.p1] at hp; rcases hp with hp | ⟨e, hp⟩ <;> cases hp
  · rw [h1] at hp; rcases hp with hp | ⟨e, hp⟩ <;> cases hp

/-- nobody is working -/
theorem idle_ended (hwf : C.dag.WF) (ms : List Move) (hu : (exec C ms).phase ≠ .ub)
    (h : ∀ n, (exec C ms).worker n ≠ .queued ∧ (exec C ms).worker n ≠ .running) :
    AllEnded (exec C ms).trace := by
  rw [← joinable_iff hwf ms hu, joinable, List.all_eq_true]
  intro x _
  have := h x.node
  cases hw : (exec C ms).worker x.node <;> simp_all

/-- threads may be fast enough -/
theorem fast_exists (hwf : C.dag.WF) {t : Nat} (h0 : t ≠ 0) (k : Nat) : ∃ ms : List Move,
    (∀ m ∈ ms, m = .ctl ∨ ∃ n, m = .begin n ∨ m = .finish n) ∧ FastThreads (C.withThreads t) ms ∧
    Even (exec (C.withThreads 0) (List.replicate k .ctl)) (exec (C.withThreads t) ms) ∧
    ticks (exec (C.withThreads t) ms).trace = ticks (exec (C.withThreads 0) (List.replicate k .ctl)).trace := by
  induction k with
  | zero => exact ⟨[], by simp, by intro i hi; simp at hi, .twin twin_init, rfl⟩
  | succ k ih =>
    obtain ⟨ms, hms, hfast, hev, ht⟩ := ih
    have hwf' : (C.withThreads t).dag.WF := hwf
    have e0 : exec (C.withThreads 0) (List.replicate (k + 1) .ctl) =
        ctlStep (C.withThreads 0) (exec (C.withThreads 0) (List.replicate k .ctl)) true := by
      rw [List.replicate_succ', exec_snoc]; rfl
    by_cases hu : (exec (C.withThreads t) ms).phase = .ub
    · refine ⟨ms, hms, hfast, ?_⟩
      have hu0 : (exec (C.withThreads 0) (List.replicate k .ctl)).phase = .ub := by
        cases hev with
        | twin h => rw [← h.phase]; exact hu
        | ub h => exact h.p0
      have e1 : ctlStep (C.withThreads 0) (exec (C.withThreads 0) (List.replicate k .ctl)) true =
          exec (C.withThreads 0) (List.replicate k .ctl) := by
        unfold ctlStep; rw [hu0]
      rw [e0, e1]
      exact ⟨hev, ht⟩
    · have hend : AllEnded (exec (C.withThreads t) ms).trace := by
        refine idle_ended hwf' ms hu ?_
        cases hev with
        | twin h => exact h.worker
        | ub h => exact absurd h.p1 hu
      have hfast1 := hfast.snoc (m := .ctl) fun _ => hend
      rcases fast_ctl (C := C) h0 hev ht with ⟨h1, h2⟩ | ⟨⟨r, n, d, h, hf, hp, htd, hkp, hps, hq⟩, h2⟩
      · refine ⟨ms ++ [.ctl], ?_, hfast1, ?_, ?_⟩
        · intro m hm
          rcases List.mem_append.1 hm with hm | hm
          · exact hms m hm
          · exact .inl (by simpa using hm)
        · rw [e0, exec_snoc]; exact h1
        · rw [e0, exec_snoc]; exact h2
      · -- the thread runs the job at once
        have c1 : exec (C.withThreads t) (ms ++ [.ctl]) =
            ctlStep (C.withThreads t) (exec (C.withThreads t) ms) true := exec_snoc ..
        rw [← c1] at hf hp htd hkp hps hq h2
        have hdead : (exec (C.withThreads t) (ms ++ [.ctl])).phase.dead = false := by rw [hp]; rfl
        have b1 : exec (C.withThreads t) (ms ++ [.ctl] ++ [.begin n]) =
            step (C.withThreads t) (exec (C.withThreads t) (ms ++ [.ctl])) (.begin n) := exec_snoc ..
        have b2 : step (C.withThreads t) (exec (C.withThreads t) (ms ++ [.ctl])) (.begin n) =
            { (exec (C.withThreads t) (ms ++ [.ctl])).emit (.jobBegin n false) with
              worker := setWorker (exec (C.withThreads t) (ms ++ [.ctl])).worker n .running } := by
          show (if _ then _ else if _ then _ else _) = _
          rw [hdead, hq]; simp
        have f1 : exec (C.withThreads t) (ms ++ [.ctl] ++ [.begin n] ++ [.finish n]) =
            step (C.withThreads t) (exec (C.withThreads t) (ms ++ [.ctl] ++ [.begin n])) (.finish n) := exec_snoc ..
        have hb := flight_begin (t := t) hf n
        have hb' := flight_finish (t := t) hb n
        rw [← b1, ← f1] at hb'
        have f2 : step (C.withThreads t) (exec (C.withThreads t) (ms ++ [.ctl] ++ [.begin n])) (.finish n) =
            { (exec (C.withThreads t) (ms ++ [.ctl] ++ [.begin n])).emit (.jobEnd n) with
              worker := setWorker (exec (C.withThreads t) (ms ++ [.ctl] ++ [.begin n])).worker n .finished } := by
          have hd : (exec (C.withThreads t) (ms ++ [.ctl] ++ [.begin n])).phase.dead = false := by
            rw [b1, b2]; exact hdead
          have hr : (exec (C.withThreads t) (ms ++ [.ctl] ++ [.begin n])).worker n = .running := by
            rw [b1, b2]; simp [setWorker]
          show (if _ then _ else if _ then _ else _) = _
          rw [hd, hr]; simp
        have hwn : (exec (C.withThreads t) (ms ++ [.ctl] ++ [.begin n] ++ [.finish n])).worker n = .finished := by
          rw [f1, f2]; simp [setWorker]
        have hph : (exec (C.withThreads t) (ms ++ [.ctl] ++ [.begin n] ++ [.finish n])).phase = .clean d := by
          rw [f1, f2, b1, b2]; exact hp
        have hend2 : AllEnded (exec (C.withThreads t) (ms ++ [.ctl] ++ [.begin n] ++ [.finish n])).trace := by
          refine idle_ended hwf' _ (by rw [hph]; simp) fun m => ?_
          by_cases hm : m = n
          · rw [hm, hwn]; simp
          · exact hb'.others m hm
        have hc := flight_collect (t := t) hb' hph
          (by rw [f1, f2, b1, b2]; exact htd) (by rw [f1, f2, b1, b2]; exact hkp)
          (by rw [f1, f2, b1, b2]; exact hps) hwn
        have c2 : exec (C.withThreads t) (ms ++ [.ctl] ++ [.begin n] ++ [.finish n] ++ [.ctl]) =
            ctlStep (C.withThreads t) (exec (C.withThreads t) (ms ++ [.ctl] ++ [.begin n] ++ [.finish n])) true :=
          exec_snoc ..
        refine ⟨ms ++ [.ctl] ++ [.begin n] ++ [.finish n] ++ [.ctl], ?_, ?_, ?_, ?_⟩
        · intro m hm
          simp only [List.mem_append, List.mem_singleton] at hm
          rcases hm with (((hm | hm) | hm) | hm) | hm
          · exact hms m hm
          · exact .inl hm
          · exact .inr ⟨n, .inl hm⟩
          · exact .inr ⟨n, .inr hm⟩
          · exact .inl hm
        · exact ((hfast1.snoc (m := .begin n) (by simp)).snoc (m := .finish n) (by simp)).snoc fun _ => hend2
        · rw [e0, c2]; exact hc
        · rw [e0, c2, ctl_ticks, ctl_ticks, hph, hb'.p0]
          rw [f1, worker_ticks _ _ (.inr rfl), b1, worker_ticks _ _ (.inl rfl), h2]

/-- **C115**, the other direction: whatever an execution with `thread_count = 0` does can also happen
with any other number of threads, in as many ticks, apart from times and the thread a job runs on. -/
theorem C115_possible (C : Cfg) (hwf : C.dag.WF) (t : Nat) (h0 : t ≠ 0) (k : Nat)
    (hp : (exec { C with threadCount := 0 } (List.replicate k .ctl)).phase ≠ .ub) :
    ∃ ms : List Move, (∀ m ∈ ms, m = .ctl ∨ ∃ n, m = .begin n ∨ m = .finish n) ∧
      FastThreads { C with threadCount := t } ms ∧
      (exec { C with threadCount := t } ms).phase =
        (exec { C with threadCount := 0 } (List.replicate k .ctl)).phase ∧
      untimed (exec { C with threadCount := t } ms).trace =
        untimed (exec { C with threadCount := 0 } (List.replicate k .ctl)).trace ∧
      ticks (exec { C with threadCount := t } ms).trace =
        ticks (exec { C with threadCount := 0 } (List.replicate k .ctl)).trace ∧
      (exec { C with threadCount := t } ms).erec.untimed =
        (exec { C with threadCount := 0 } (List.replicate k .ctl)).erec.untimed := by
  obtain ⟨ms, h1, h2, h3, h4⟩ := fast_exists hwf h0 k
  cases h3 with
  | twin h => exact ⟨ms, h1, h2, h.phase, h.trace, h4, h.erec⟩
  | ub h => exact absurd h.p0 hp

/-- records come in an order that respects the dag -/
theorem records_topo (hwf : C.dag.WF) (ms : List Move) :
    Topo C.dag ((exec C ms).erec.runs.map RunRecord.node) := by
  have hT := tinv_exec hwf ms
  generalize exec C ms = s at *
  intro a x b e m hm
  rw [← hT.recs] at e
  obtain ⟨p, q, e1, rfl, e2⟩ := List.map_eq_append_iff.1 e
  obtain ⟨r, q', rfl, rfl, rfl⟩ := List.map_eq_cons_iff.1 e2
  -- the call of `after_run`
  obtain ⟨pre, rest, htr, hpre, hrest⟩ := List.filterMap_eq_append_iff.1 e1
  obtain ⟨mid, ev, post, hr, hmid, hev, -⟩ := List.filterMap_eq_cons_iff.1 hrest
  have hrec : Recorded (pre ++ mid ++ [ev]) r.node := by
    refine ⟨r, ?_, rfl⟩
    unfold recsOf
    rw [List.filterMap_append]
    refine List.mem_append_right _ (List.mem_filterMap.2 ⟨ev, by simp, hev⟩)
  have htr' : s.trace = (pre ++ mid ++ [ev]) ++ post := by rw [htr, hr]; simp
  obtain ⟨-, r', -, -, hl⟩ := rec_split hT htr' hrec
  have hb : Tag.before ∈ life r.node (pre ++ mid ++ [ev]) := by
    rw [hl]; unfold recLife; split <;> (try split) <;> simp
  unfold life at hb
  obtain ⟨ev', hev', htag⟩ := List.mem_filterMap.1 hb
  have hb2 : ∃ er, ev' = .beforeRun er r.node := by
    revert htag; cases ev' <;> simp [tagOf]
  obtain ⟨er, rfl⟩ := hb2
  have hin : Event.beforeRun er r.node ∈ pre ++ mid := by
    rcases List.mem_append.1 hev' with h | h
    · exact h
    · rw [List.mem_singleton] at h
      rw [← h] at hev; cases hev
  obtain ⟨u, v, huv⟩ := List.append_of_mem hin
  have hG := hT.always u (.beforeRun er r.node) (v ++ [ev] ++ post) (by rw [htr', huv]; simp)
  obtain ⟨r2, hr2, hn2⟩ := hG.2.2.1 m hm
  refine List.mem_map.2 ⟨r2, ?_, hn2⟩
  have : r2 ∈ recsOf (pre ++ mid) := by rw [huv, recsOf_append]; exact List.mem_append_left _ hr2
  rw [recsOf_append] at this
  rcases List.mem_append.1 this with h | h
  · rw [← hpre]; exact h
  · obtain ⟨z, hz, hz2⟩ := List.mem_filterMap.1 h
    rw [hmid z hz] at hz2; cases hz2

/-- **C115**, records: with any number of threads, and threads that go on in whatever order, the tasks a
finished execution reports come in an order that respects the declared orderings. -/
theorem C115_ordered (st : Store) (ts : TaskSet) (filter : Str) (tc : Nat) (L : List TaskId)
    (hL : RecordOrder st ts filter tc L) :
    L.Nodup ∧ (∀ t, t ∈ L ↔ Selected st ts filter t) ∧
    ∀ a b, Relation.TransGen (MustFollow st ts filter) b a → [a, b].Sublist L := by
  obtain ⟨E, univ, visit, order, fuel, s, ms, rfl, hb, hf, hs, hfin, rfl⟩ := hL
  have hB := builtFresh hb hf hs
  have hwf : (execCfg E.store s.dag tc).dag.WF := hB.wf
  obtain ⟨hp, hrt, -⟩ := C02_one_record _ hwf ms hfin
  have ht := records_topo hwf ms
  generalize exec (execCfg E.store s.dag tc) ms = x at *
  have hmap : x.erec.runs.map RunRecord.t = (x.erec.runs.map RunRecord.node).map s.dag.task := by
    rw [List.map_map]
    exact List.map_congr_left fun r hr => (hrt r hr).1
  change (x.erec.runs.map RunRecord.node).Perm s.dag.nodes at hp
  change Topo s.dag _ at ht
  rw [hmap]
  generalize x.erec.runs.map RunRecord.node = N at *
  have hnd : N.Nodup := hp.nodup_iff.2 hB.wf.nodup
  refine ⟨((hp.map _).nodup_iff).2 hB.tasks, fun t => ?_, fun a b hab => ?_⟩
  · rw [(hp.map _).mem_iff]; exact hB.selected t
  · have hsel : ∀ t u, Relation.TransGen (MustFollow E.store ts filter) t u →
        Selected E.store ts filter t ∧ Selected E.store ts filter u := by
      intro t u h
      induction h with
      | single h => exact ⟨h.1, h.2.1⟩
      | tail _ h ih => exact ⟨ih.1, h.2.1⟩
    obtain ⟨h1, h2⟩ := hsel b a hab
    obtain ⟨x, hx, rfl⟩ := List.mem_map.1 ((hB.selected b).2 h1)
    obtain ⟨y, hy, rfl⟩ := List.mem_map.1 ((hB.selected a).2 h2)
    exact (topo_path ht hnd (hB.path hab x hx y hy rfl rfl) (hp.mem_iff.2 hx)).map s.dag.task

/-- **C115**, records: an order that is possible with `thread_count = 0` is possible with any number of
threads. -/
theorem C115_seqOrder (st : Store) (ts : TaskSet) (filter : Str) (tc : Nat) (L : List TaskId)
    (hL : SeqOrder st ts filter L) : RecordOrder st ts filter tc L := by
  obtain ⟨E, univ, visit, order, fuel, s, k, rfl, hb, hf, hs, hfin, rfl⟩ := hL
  by_cases htc : tc = 0
  · exact ⟨E, univ, visit, order, fuel, s, _, rfl, hb, hf, hs, htc ▸ hfin, htc ▸ rfl⟩
  · obtain ⟨ms, -, -, hp, -, -, her⟩ := C115_possible (execCfg E.store s.dag 0) (builtFresh hb hf hs).wf tc htc k
      (by
        show (exec (execCfg E.store s.dag 0) _).phase ≠ _
        rw [hfin]; simp)
    refine ⟨E, univ, visit, order, fuel, s, ms, rfl, hb, hf, hs, hp.trans hfin, ?_⟩
    have := congrArg (fun e : ExecRecord => e.runs.map RunRecord.t) her
    simp only [ExecRecord.untimed, List.map_map] at this
    exact this.symm

/-- **C115**, records: which orders are possible does not depend on the number of threads: those that
respect the declared orderings, and all of these. -/
theorem C115_orders (E : BEnv) (ts : TaskSet) (univ visit : List TaskId) (order : List TaskId → List TaskId)
    (h : BuildEnv E Dag.empty ts univ visit order) (fuel : Nat) (hfuel : univ.length < fuel) (filter : Str)
    (s : BSt) (hs : insertSet E fuel Dag.empty ts filter visit order = .ok s)
    (hG : Healthy (execCfg E.store s.dag 0)) (tc : Nat) (L : List TaskId) :
    RecordOrder E.store ts filter tc L ↔
      L.Nodup ∧ (∀ t, t ∈ L ↔ Selected E.store ts filter t) ∧
      ∀ a b, MustFollow E.store ts filter b a → [a, b].Sublist L := by
  constructor
  · intro hL
    obtain ⟨h1, h2, h3⟩ := C115_ordered E.store ts filter tc L hL
    exact ⟨h1, h2, fun a b hab => h3 a b (.single hab)⟩
  · rintro ⟨h1, h2, h3⟩
    exact C115_seqOrder _ _ _ _ _ (C104_every E ts univ visit order h fuel hfuel filter s hs hG L h1 h2 h3)

/-! ## Examples -/

theorem fast_of_joinable (hwf : C.dag.WF) {ms : List Move}
    (h : ∀ i < ms.length, (exec C (ms.take i)).phase ≠ .ub ∧
      (ms[i]? = some .ctl → joinable (exec C (ms.take i)) = true)) : FastThreads C ms := by
  intro i hi
  have hl := (List.getElem?_eq_some_iff.1 hi).1
  exact (joinable_iff hwf _ (h i hl).1).1 ((h i hl).2 hi)

/-- every job is executed as soon as it is given to a thread -/
def Ex.fastSched : List Move :=
  (List.replicate 24 [Move.begin 1, .finish 1, .begin 2, .finish 2, .begin 3, .finish 3, .ctl]).flatten

/-- the hypotheses of `C115_same` are met by three jobs on two threads -/
example : FastThreads (Ex.par 2) Ex.fastSched ∧ (exec (Ex.par 2) Ex.fastSched).phase = .finished :=
  ⟨fast_of_joinable (Ex.par_wf 2) (by decide +kernel), by decide +kernel⟩

/-- threads that are not fast: with the first schedule of C78 for two threads the order is another one -/
example : (exec (Ex.par 2) (Ex.rounds [1, 2, 3] 5)).phase = .finished ∧
    (exec (Ex.par 2) (Ex.rounds [1, 2, 3] 5)).erec.runs.map RunRecord.node ≠
      (exec (Ex.par 2) Ex.fastSched).erec.runs.map RunRecord.node := by decide +kernel

/-- the hypotheses of `C115_possible` are met -/
example : (exec (Ex.par 0) (List.replicate 21 .ctl)).phase = .finished := by decide +kernel

/-- a library and its two users with three threads: both orders of the users are possible -/
example : RecordOrder Ex.libStore Ex.libSet [] 3 [0, 1, 2] ∧ RecordOrder Ex.libStore Ex.libSet [] 3 [0, 2, 1] ∧
    ¬ RecordOrder Ex.libStore Ex.libSet [] 3 [1, 0, 2] := by
  refine ⟨C115_seqOrder _ _ _ _ _ ⟨Ex.libEnv 10, [0, 1, 2], [0, 1, 2], id, 4,
      match Ex.libAll (Ex.libEnv 10) with | .ok s => s | _ => ⟨Dag.empty, [], []⟩, 21, rfl,
      Ex.libBuildEnv 10 Dag.empty ⟨by simp [Dag.empty], by simp [Dag.empty]⟩ (by simp [Dag.empty]),
      by decide, rfl, by decide +kernel, by decide +kernel⟩,
    C115_seqOrder _ _ _ _ _ ⟨Ex.libEnv', [0, 1, 2], [0, 1, 2], id, 4,
      match Ex.libAll Ex.libEnv' with | .ok s => s | _ => ⟨Dag.empty, [], []⟩, 21, rfl,
      Ex.libBuildEnv', by decide, rfl, by decide +kernel, by decide +kernel⟩, fun h => ?_⟩
  obtain ⟨-, h2, h3⟩ := C115_ordered _ _ _ _ _ h
  have := h3 0 1 (.single ⟨(h2 1).1 (by simp), (h2 0).1 (by simp), .inl (by simp [Ex.libStore])⟩)
  revert this
  decide

end Joque
