import Verif.Proof.Metered
import Verif.Props.InterleaveQueue
import Verif.Props.Fine

/-! # An execution is determined by the ticks in which its jobs are found finished (C120) -/

namespace Joque

variable {C : Cfg}

/-- If every job that is executed is found finished in the same tick, two executions of a dag that finish do
the same: the same callbacks with the same arguments apart from times, the same threads created and the same
ticks, all in the same order, and they return the same record apart from times. -/
theorem C120_replay (hwf : C.dag.WF) {ms ms' : List Move} (hf : (exec C ms).phase = .finished)
    (hf' : (exec C ms').phase = .finished) (h : SameTicks (exec C ms).trace (exec C ms').trace) :
    control (exec C ms).trace = control (exec C ms').trace ∧
      (exec C ms).erec.untimed = (exec C ms').erec.untimed := by
  have := lockstep hwf _ [] ms [] ms' rfl (Abreast.rfl' _) hf hf' (fun n _ k _ _ hk => (h n k).1 hk)
    (fun n _ k _ _ hk => (h n k).2 hk)
  exact ⟨this.trace, this.erec⟩

/-- **C120**, exactly: executions of a dag that finish do the same iff every job is found finished in the same
tick. -/
theorem C120_exact (hwf : C.dag.WF) {ms ms' : List Move} (hf : (exec C ms).phase = .finished)
    (hf' : (exec C ms').phase = .finished) : SameTicks (exec C ms).trace (exec C ms').trace ↔
      control (exec C ms).trace = control (exec C ms').trace := by
  refine ⟨fun h => (C120_replay hwf hf hf' h).1, fun h n k => ?_⟩
  rw [foundIn_control, h, ← foundIn_control]

theorem control_filter (tr : List Event) : control (tr.filter (fun e => !e.isJob)) = control tr := by
  induction tr with
  | nil => rfl
  | cons e tr ih =>
    have h : control (e :: tr) = control [e] ++ control tr := control_append [e] tr
    rw [h, ← ih, List.filter_cons]
    split
    · exact control_append [e] _
    · rename_i he
      cases e <;> first | rfl | exact absurd rfl he

/-- **C120** when threads run between the single calls of the control thread. -/
theorem C120_fine (hwf : C.dag.WF) {fms fms' : List FMove} (hf : (fexec C fms).s.phase = .finished)
    (hf' : (fexec C fms').s.phase = .finished) (hp : (fexec C fms).pend = [])
    (hp' : (fexec C fms').pend = []) (h : SameTicks (fexec C fms).seen (fexec C fms').seen) :
    control (fexec C fms).seen = control (fexec C fms').seen ∧
      (fexec C fms).s.erec.untimed = (fexec C fms').s.erec.untimed := by
  obtain ⟨ms, h1, -, -, -, h2, -⟩ := C95_same C hwf fms
  obtain ⟨ms', h1', -, -, -, h2', -⟩ := C95_same C hwf fms'
  rw [hp, List.append_nil] at h2
  rw [hp', List.append_nil] at h2'
  have e : control (fexec C fms).seen = control (exec C ms).trace := by
    rw [← control_filter, h2, control_filter]
  have e' : control (fexec C fms').seen = control (exec C ms').trace := by
    rw [← control_filter, h2', control_filter]
  rw [e, e', h1, h1']
  rw [h1] at hf
  rw [h1'] at hf'
  refine C120_replay hwf hf hf' fun n k => ?_
  rw [foundIn_control, ← e, ← foundIn_control, h n k, foundIn_control, e', ← foundIn_control]

/-! ### What the engine does is a function of the durations of the jobs -/

/-- a job is found finished once -/
theorem foundIn_unique (hwf : C.dag.WF) (ms : List Move) {n : Node} {k k' : Nat}
    (h : FoundIn (exec C ms).trace n k) (h' : FoundIn (exec C ms).trace n k') : k = k' := by
  obtain ⟨hI, hT⟩ := both_exec (C := C) hwf ms
  have hnd : ((recsOf (exec C ms).trace).map RunRecord.node).Nodup := by
    rw [hT.recs]
    have := hI.nodup
    unfold allNodes at this
    rw [List.append_assoc] at this
    exact (List.nodup_append.1 (List.nodup_append.1 this).2.1).1
  have two : ∀ p er r ref y er' r' ref' q, (exec C ms).trace =
      p ++ Event.afterRun er r ref :: y ++ Event.afterRun er' r' ref' :: q → r.node = n → r'.node = n →
      False := by
    intro p er r ref y er' r' ref' q e h1 h2
    have h3 : ∀ er r ref l, recsOf (Event.afterRun er r ref :: l) = r :: recsOf l := fun _ _ _ _ => rfl
    rw [e, recsOf_append, recsOf_append, h3, h3] at hnd
    simp only [List.map_append, List.map_cons, h1, h2, List.append_assoc] at hnd
    have := (List.nodup_append.1 hnd).2.1
    simp at this
  obtain ⟨p, er, r, ref, q, e, h1, -, rfl⟩ := h
  obtain ⟨p', er', r', ref', q', e', h1', -, rfl⟩ := h'
  have e0 := e
  rw [e'] at e
  rcases List.append_eq_append_iff.1 e with ⟨a, ha, hb⟩ | ⟨a, ha, hb⟩
  · cases a with
    | nil => rw [ha]; simp
    | cons x a =>
      simp only [List.cons_append, List.cons.injEq] at hb
      rw [ha, ← hb.1] at e0
      exact (two _ _ _ _ _ _ _ _ _ e0 h1' h1).elim
  · cases a with
    | nil => rw [ha]; simp
    | cons x a =>
      simp only [List.cons_append, List.cons.injEq] at hb
      rw [ha, ← hb.1] at e'
      exact (two _ _ _ _ _ _ _ _ _ e' h1 h1').elim

/-- **C120**, relative to the creation of the threads: two executions that finish, in which every job takes the
same number of ticks, do the same. -/
theorem C120_duration (hwf : C.dag.WF) (d : Node → Nat) {ms ms' : List Move}
    (hf : (exec C ms).phase = .finished) (hf' : (exec C ms').phase = .finished)
    (h : Lasts d (exec C ms).trace) (h' : Lasts d (exec C ms').trace) :
    control (exec C ms).trace = control (exec C ms').trace ∧
      (exec C ms).erec.untimed = (exec C ms').erec.untimed := by
  have := lockstep hwf _ [] ms [] ms' rfl (Abreast.rfl' _) hf hf'
    (fun n j k hj hj' hk => by
      rw [List.nil_append] at hj hk
      rw [foundIn_unique hwf ms hk (h n j hj)]
      exact h' n j hj')
    (fun n j k hj hj' hk => by
      rw [List.nil_append] at hj hk
      rw [foundIn_unique hwf ms' hk (h' n j hj)]
      exact h n j hj')
  exact ⟨this.trace, this.erec⟩

/-- Any numbers of ticks are possible. -/
theorem C120_possible (hG : Healthy C) (d : Node → Nat) :
    ∃ ms, (exec C ms).phase = .finished ∧ Lasts d (exec C ms).trace := by
  obtain ⟨ms, hf, hM⟩ := metered_finish hG d
  refine ⟨ms, hf, fun n j hj => ?_⟩
  have hT := tinv_exec (C := C) hG.wf ms
  have hh := (hT.afterExec _ (hT.isFinished hf)).2
  rcases hM.found n j hj with ⟨h, hm, _⟩ | h
  · rw [hh] at hm; cases hm
  · exact h

/-- In every execution that finishes every job takes some number of ticks. -/
theorem C120_some (hwf : C.dag.WF) {ms : List Move} (hf : (exec C ms).phase = .finished) :
    ∃ d, Lasts d (exec C ms).trace := by
  obtain ⟨hI, hT⟩ := both_exec (C := C) hwf ms
  have hh := (hT.afterExec _ (hT.isFinished hf)).2
  have key : ∀ n, ∃ t, ∀ j, LaunchedIn (exec C ms).trace n j → FoundIn (exec C ms).trace n (j + t) := by
    intro n
    by_cases hn : ∃ j, LaunchedIn (exec C ms).trace n j
    · obtain ⟨j, p, q, e, rfl⟩ := hn
      have hl : Event.launch n ∈ (exec C ms).trace := by rw [e]; simp
      have hlife := launch_mem_life.1 hl
      have hnall : n ∈ allNodes (exec C ms) := by
        by_contra hc
        rcases hT.lifeOther n hc with h | ⟨_, h⟩ <;> rw [h] at hlife <;> simp at hlife
      have hrec : ∃ r ∈ (exec C ms).erec.runs, r.node = n := by
        unfold allNodes at hnall
        rw [hh] at hnall
        simp only [List.map_nil, List.nil_append, List.mem_append] at hnall
        rcases hnall with h | h
        · exact List.mem_map.1 h
        · have := hT.lifeTp n h
          rw [this] at hlife; cases hlife
      obtain ⟨r, hr, rfl⟩ := hrec
      have hrl := hT.lifeRec r hr
      have hst : r.status = .ok ∨ r.status = .fail := by
        rw [hrl] at hlife
        cases hs : r.status <;> rw [hs] at hlife <;> simp [recLife] at hlife ⊢
      have htc : C.threadCount ≠ 0 := by
        intro h0
        rw [hrl] at hlife
        rcases hst with hs | hs <;> rw [hs] at hlife <;> simp [recLife, h0] at hlife
      have hlw : life r.node (exec C ms).trace = [.before, .launch, .begin false, .end, .log, .after] := by
        rw [hrl]
        rcases hst with hs | hs <;> rw [hs] <;> simp [recLife, htc]
      have h1 : ∀ a b, life r.node (a ++ b) = life r.node a ++ life r.node b := fun a b => List.filterMap_append
      have h2 : ∀ b, life r.node (.launch r.node :: b) = .launch :: life r.node b := fun b => by
        simp [life, tagOf]
      have hpl : life r.node p = [.before] ∧ life r.node q = [.begin false, .end, .log, .after] := by
        rw [e, h1, h2] at hlw
        rcases hlp : life r.node p with _ | ⟨x, _ | ⟨y, l⟩⟩ <;> rw [hlp] at hlw <;> simp at hlw
        · exact ⟨by rw [hlw.1], hlw.2⟩
        · obtain ⟨_, _, hlw⟩ := hlw
          rcases l with _ | ⟨a, _ | ⟨b, _ | ⟨c, _ | ⟨e, l⟩⟩⟩⟩ <;> simp at hlw
      have hafter : ∃ er ref, Event.afterRun er r ref ∈ (exec C ms).trace := by
        rw [← hT.recs] at hr
        exact mem_recsOf.1 hr
      obtain ⟨er, ref, ha⟩ := hafter
      have haq : Event.afterRun er r ref ∈ q := by
        rw [e] at ha
        rcases List.mem_append.1 ha with ha | ha
        · exfalso
          have : Tag.after ∈ life r.node p := List.mem_filterMap.2 ⟨_, ha, by simp [tagOf]⟩
          rw [hpl.1] at this
          simp at this
        · simpa using ha
      obtain ⟨a, b, hab⟩ := List.append_of_mem haq
      refine ⟨a.count .resumed, fun j' hj' => ?_⟩
      obtain ⟨p', q', e', rfl⟩ := hj'
      have hpp : p' = p := by
        have hc : (life r.node (exec C ms).trace).count .launch = 1 := by rw [hlw]; decide
        rcases split_twice e e' with h | ⟨y, h⟩ | ⟨y, h⟩
        · exact h.symm
        · rw [e', h, h1, h1, h2, h2] at hc
          simp only [List.count_append, List.count_cons_self] at hc
          omega
        · rw [e, h, h1, h1, h2, h2] at hc
          simp only [List.count_append, List.count_cons_self] at hc
          omega
      subst hpp
      refine ⟨p' ++ .launch r.node :: a, er, r, ref, b, by rw [e, hab]; simp, rfl, hst, ?_⟩
      simp [List.count_append]
    · exact ⟨0, fun j hj => absurd ⟨j, hj⟩ hn⟩
  choose d hd using key
  exact ⟨d, fun n j hj => hd n j hj⟩

/-! ### Examples -/

/-- the jobs found finished and their ticks, after `k` ticks -/
def foundList (k : Nat) : List Event → List (Node × Nat)
  | [] => []
  | .resumed :: tr => foundList (k + 1) tr
  | .afterRun _ r _ :: tr =>
    if r.status = .ok ∨ r.status = .fail then (r.node, k) :: foundList k tr else foundList k tr
  | _ :: tr => foundList k tr

theorem foundList_iff (tr : List Event) : ∀ (k0 : Nat) (n : Node) (k : Nat),
    (n, k) ∈ foundList k0 tr ↔ ∃ j, k = k0 + j ∧ FoundIn tr n j := by
  induction tr with
  | nil =>
    intro k0 n k
    constructor
    · intro h; cases h
    · rintro ⟨j, _, p, er, r, ref, q, h, _⟩
      simp at h
  | cons e tr ih =>
    intro k0 n k
    have skip : ∀ j, FoundIn (e :: tr) n j ↔ (j = 0 ∧ ∃ er r ref, e = .afterRun er r ref ∧ r.node = n ∧
        (r.status = .ok ∨ r.status = .fail)) ∨ ∃ i, FoundIn tr n i ∧ j = i + [e].count .resumed := by
      intro j
      constructor
      · rintro ⟨p, er, r, ref, q, h, h1, h2, h3⟩
        cases p with
        | nil =>
          simp only [List.nil_append, List.cons.injEq] at h
          exact .inl ⟨by simpa using h3.symm, er, r, ref, h.1, h1, h2⟩
        | cons x p =>
          simp only [List.cons_append, List.cons.injEq] at h
          refine .inr ⟨_, ⟨p, er, r, ref, q, h.2, h1, h2, rfl⟩, ?_⟩
          rw [← h3, ← h.1, List.count_cons, List.count_cons]
          simp
      · rintro (⟨rfl, er, r, ref, rfl, h1, h2⟩ | ⟨i, ⟨p, er, r, ref, q, rfl, h1, h2, h3⟩, rfl⟩)
        · exact ⟨[], er, r, ref, tr, rfl, h1, h2, rfl⟩
        · refine ⟨e :: p, er, r, ref, q, rfl, h1, h2, ?_⟩
          rw [← h3, List.count_cons, List.count_cons]
          simp
    simp only [skip]
    by_cases hr : e = .resumed
    · subst hr
      show (n, k) ∈ foundList (k0 + 1) tr ↔ _
      rw [ih]
      constructor
      · rintro ⟨j, rfl, hj⟩
        exact ⟨j + 1, by omega, .inr ⟨j, hj, by simp⟩⟩
      · rintro ⟨j, rfl, ⟨_, er, r, ref, h, _⟩ | ⟨i, hi, rfl⟩⟩
        · cases h
        · exact ⟨i, by simp; omega, hi⟩
    · have h0 : [e].count .resumed = 0 := by simp [hr]
      by_cases ha : ∃ er r ref, e = .afterRun er r ref ∧ (r.status = .ok ∨ r.status = .fail)
      · obtain ⟨er, r, ref, rfl, hst⟩ := ha
        show (n, k) ∈ (if _ then _ else _) ↔ _
        rw [if_pos hst, List.mem_cons, ih]
        constructor
        · rintro (h | ⟨j, rfl, hj⟩)
          · simp only [Prod.mk.injEq] at h
            exact ⟨0, h.2, .inl ⟨rfl, er, r, ref, rfl, h.1.symm, hst⟩⟩
          · exact ⟨j, rfl, .inr ⟨j, hj, by rw [h0]; rfl⟩⟩
        · rintro ⟨j, rfl, ⟨rfl, _, _, _, h, h1, _⟩ | ⟨i, hi, rfl⟩⟩
          · cases h
            exact .inl (by rw [h1]; rfl)
          · exact .inr ⟨_, rfl, hi⟩
      · have hfl : foundList k0 (e :: tr) = foundList k0 tr := by
          cases e
          case resumed => exact absurd rfl hr
          case afterRun er r ref =>
            show (if _ then _ else _) = _
            rw [if_neg (fun h => ha ⟨er, r, ref, rfl, h⟩)]
          all_goals rfl
        rw [hfl, ih]
        constructor
        · rintro ⟨j, rfl, hj⟩
          exact ⟨j, rfl, .inr ⟨j, hj, by rw [h0]; rfl⟩⟩
        · rintro ⟨j, rfl, ⟨_, er, r, ref, h, _, h2⟩ | ⟨i, hi, rfl⟩⟩
          · exact absurd ⟨er, r, ref, h, h2⟩ ha
          · exact ⟨i, by rw [h0]; rfl, hi⟩

theorem foundIn_list (tr : List Event) (n : Node) (k : Nat) : FoundIn tr n k ↔ (n, k) ∈ foundList 0 tr := by
  rw [foundList_iff]
  constructor
  · intro hk; exact ⟨k, by omega, hk⟩
  · rintro ⟨j, hj, h⟩
    have : k = j := by omega
    rw [this]; exact h

theorem sameTicks_of_list {tr tr' : List Event} (h : foundList 0 tr = foundList 0 tr') :
    SameTicks tr tr' := by
  intro n k
  rw [foundIn_list, foundIn_list, h]

/-- the threads created and their ticks -/
def launchedList (tr : List Event) : List (Node × Nat) :=
  (List.range tr.length).filterMap fun i => match (tr[i]? : Option Event) with
    | some (.launch n) => some (n, (tr.take i).count .resumed)
    | _ => none

theorem launchedIn_list {tr : List Event} {n : Node} {k : Nat} (h : LaunchedIn tr n k) :
    (n, k) ∈ launchedList tr := by
  obtain ⟨p, q, rfl, rfl⟩ := h
  refine List.mem_filterMap.2 ⟨p.length, by simp, ?_⟩
  simp

theorem lasts_of_list {d : Node → Nat} {tr : List Event}
    (h : ∀ x ∈ launchedList tr, (x.1, x.2 + d x.1) ∈ foundList 0 tr) : Lasts d tr := by
  intro n k hk
  exact (foundIn_list _ _ _).2 (h (n, k) (launchedIn_list hk))

namespace Ex

/-- runs of the three tasks of `lone`; 2 and 3 are on threads together, and left in the order of `w` -/
def pairs (w : List Node) : List Move :=
  (List.replicate 2 (List.replicate 12 Move.ctl ++ ([1, 2, 3].map .begin ++ w.map .finish))).flatten ++
    List.replicate 7 .ctl

/-- 3 is left one tick later than 2 -/
def later : List Move :=
  List.replicate 12 Move.ctl ++ [.begin 1, .finish 1] ++ List.replicate 12 .ctl ++
    [.begin 2, .begin 3, .finish 2] ++ List.replicate 7 .ctl ++ [.finish 3] ++ List.replicate 4 .ctl

theorem pairs_fin : (exec lone (pairs [1, 2, 3])).phase = .finished ∧
    (exec lone (pairs [3, 2, 1])).phase = .finished ∧ (exec lone later).phase = .finished := by
  decide +kernel

/-- the jobs are left in a different order, and found finished in the same ticks -/
theorem pairs_ticks : (exec lone (pairs [1, 2, 3])).trace ≠ (exec lone (pairs [3, 2, 1])).trace ∧
    foundList 0 (exec lone (pairs [1, 2, 3])).trace = foundList 0 (exec lone (pairs [3, 2, 1])).trace ∧
    foundList 0 (exec lone (pairs [1, 2, 3])).trace = [(1, 3), (2, 5), (3, 5)] := by
  decide +kernel

end Ex

example : control (exec Ex.lone (Ex.pairs [1, 2, 3])).trace = control (exec Ex.lone (Ex.pairs [3, 2, 1])).trace :=
  (C120_replay Ex.lone_healthy.wf Ex.pairs_fin.1 Ex.pairs_fin.2.1 (sameTicks_of_list Ex.pairs_ticks.2.1)).1

/-- in both the jobs of 1 and 3 are found finished one tick after the creation of their threads, that of 2
two ticks after -/
theorem Ex.pairs_lasts : Lasts (fun n => if n = 2 then 2 else 1) (exec Ex.lone (Ex.pairs [1, 2, 3])).trace ∧
    Lasts (fun n => if n = 2 then 2 else 1) (exec Ex.lone (Ex.pairs [3, 2, 1])).trace :=
  ⟨lasts_of_list (by decide +kernel), lasts_of_list (by decide +kernel)⟩

example : (exec Ex.lone (Ex.pairs [1, 2, 3])).erec.untimed = (exec Ex.lone (Ex.pairs [3, 2, 1])).erec.untimed :=
  (C120_duration Ex.lone_healthy.wf _ Ex.pairs_fin.1 Ex.pairs_fin.2.1 Ex.pairs_lasts.1 Ex.pairs_lasts.2).2

/-- the job of 1 takes a hundred ticks, that of 2 two hundred, that of 3 three hundred -/
example : ∃ ms, (exec Ex.lone ms).phase = .finished ∧ Lasts (fun n => 100 * n) (exec Ex.lone ms).trace :=
  C120_possible Ex.lone_healthy _

/-- otherwise something is done differently -/
example : control (exec Ex.lone (Ex.pairs [1, 2, 3])).trace ≠ control (exec Ex.lone Ex.later).trace := by
  intro h
  have h := (C120_exact Ex.lone_healthy.wf Ex.pairs_fin.1 Ex.pairs_fin.2.2).2 h 3 5
  rw [foundIn_list, foundIn_list] at h
  revert h
  decide +kernel

/-- the same two runs with threads between the single calls -/
example : ∃ fms fms', (fexec Ex.lone fms).seen ≠ (fexec Ex.lone fms').seen ∧
    control (fexec Ex.lone fms).seen = control (fexec Ex.lone fms').seen := by
  obtain ⟨fms, h⟩ := C95_every Ex.lone Ex.lone_healthy.wf (Ex.pairs [1, 2, 3])
  obtain ⟨fms', h'⟩ := C95_every Ex.lone Ex.lone_healthy.wf (Ex.pairs [3, 2, 1])
  refine ⟨fms, fms', by rw [h, h']; exact Ex.pairs_ticks.1, ?_⟩
  exact (C120_fine Ex.lone_healthy.wf (by rw [h]; exact Ex.pairs_fin.1) (by rw [h']; exact Ex.pairs_fin.2.1)
    (by rw [h]) (by rw [h']) (by rw [h, h']; exact sameTicks_of_list Ex.pairs_ticks.2.1)).1

end Joque
