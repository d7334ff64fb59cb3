import Verif.Props.Polling2

/-! # How long `run( period )` takes when ticks are long or late (C122) -/

namespace Joque

variable {C : Cfg}

open Classical in
/-- the sum of `w k` over the ticks `k` (from 0) such that `Q` holds of the history before the tick -/
noncomputable def weightWhere (w : Nat → Int) (Q : List Event → Prop) (tr : List Event) : Int :=
  ((List.range tr.length).map fun i =>
    if tr[i]? = some Event.resumed ∧ Q (tr.take i) then w (ticks (tr.take i)) else 0).sum

theorem weightWhere_snoc (w : Nat → Int) (Q : List Event → Prop) [DecidablePred Q] (a : List Event) (e : Event) :
    weightWhere w Q (a ++ [e]) = weightWhere w Q a + if e = .resumed ∧ Q a then w (ticks a) else 0 := by
  classical
  unfold weightWhere
  rw [List.length_append, List.length_singleton, List.range_succ, List.map_append, List.sum_append]
  congr 1
  · congr 1
    refine List.map_congr_left fun i hi => ?_
    have hi := List.mem_range.1 hi
    rw [List.getElem?_append_left hi, List.take_append_of_le_length (Nat.le_of_lt hi)]
  · simp

theorem ticks_snoc (a : List Event) (e : Event) : ticks (a ++ [e]) = ticks a + if e = .resumed then 1 else 0 := by
  rw [ticks_append]
  congr 1
  by_cases h : e = .resumed
  · subst h; rfl
  · rw [if_neg h, ticks_zero (by simpa using fun h' => h h'.symm)]

/-- the sum of `w j`, …, `w (k - 1)` -/
def weightSum (w : Nat → Int) (j k : Nat) : Int := ((List.range' j (k - j)).map w).sum

theorem weightSum_self (w : Nat → Int) (k : Nat) : weightSum w k k = 0 := by simp [weightSum]

theorem weightSum_succ (w : Nat → Int) {j k : Nat} (h : j ≤ k) : weightSum w j (k + 1) = weightSum w j k + w k := by
  unfold weightSum
  rw [show k + 1 - j = (k - j) + 1 by omega, List.range'_1_concat, List.map_append, List.sum_append]
  simp [show j + (k - j) = k by omega]

theorem weightWhere_all (w : Nat → Int) (a : List Event) : weightWhere w (fun _ => True) a = weightSum w 0 (ticks a) := by
  classical
  induction a using List.reverseRecOn with
  | nil => rfl
  | append_singleton a e ih =>
    rw [weightWhere_snoc, ih, ticks_snoc]
    by_cases h : e = .resumed
    · simp only [h, and_self, if_true]
      rw [weightSum_succ w (Nat.zero_le _)]
    · simp [h]

/-- what is not counted by `Q` is at most `p` each; the first tick counts nothing -/
theorem weight_split {w : Nat → Int} {p : Int} (h0 : w 0 = 0) (hw : ∀ k, w k ≤ p) {Q : List Event → Prop}
    (hQ : ¬ Q []) (a : List Event) (ha : a = [] ∨ a.head? = some .resumed) :
    weightSum w 0 (ticks a) ≤ ((ticks a - 1 : Nat) : Int) * p - ticksWhere Q a * p + weightWhere w Q a ∧
    ticksWhere Q a ≤ ticks a - 1 := by
  classical
  induction a using List.reverseRecOn with
  | nil => simp [weightSum, weightWhere, ticksWhere, ticks]
  | append_singleton a e ih =>
    by_cases hnil : a = []
    · subst hnil
      have he : e = .resumed := by simpa using ha
      subst he
      have h1 : ticks ([] ++ [Event.resumed]) = 1 := rfl
      rw [h1, ticksWhere_snoc, weightWhere_snoc, if_neg (fun h => hQ h.2), if_neg (fun h => hQ h.2)]
      simp [weightSum, h0, weightWhere, ticksWhere]
    · have hh : a.head? = some .resumed := by
        rcases ha with h | h
        · simp at h
        · cases a with
          | nil => exact absurd rfl hnil
          | cons x a => simpa using h
      obtain ⟨i1, i2⟩ := ih (.inr hh)
      have hpos : 0 < ticks a := by
        cases a with
        | nil => exact absurd rfl hnil
        | cons x a =>
          have : x = .resumed := by simpa using hh
          subst this
          simp [ticks]
      rw [ticks_snoc, ticksWhere_snoc, weightWhere_snoc]
      by_cases he : e = .resumed
      · simp only [he, true_and, if_true]
        rw [weightSum_succ w (Nat.zero_le _)]
        have := hw (ticks a)
        have e1 : ((ticks a + 1 - 1 : Nat) : Int) = ((ticks a - 1 : Nat) : Int) + 1 := by omega
        rw [e1, Int.add_mul]
        by_cases hq : Q a
        · rw [if_pos hq, if_pos hq]
          push_cast
          rw [Int.add_mul]
          exact ⟨by omega, by omega⟩
        · rw [if_neg hq, if_neg hq, Nat.add_zero]
          exact ⟨by omega, by omega⟩
      · simp only [he, false_and, if_false, Nat.add_zero, Int.add_zero]
        exact ⟨i1, i2⟩

/-- while some job is on a thread, one of `l` is -/
theorem weight_waiting {w : Nat → Int} (hw : ∀ k, 0 ≤ w k) {l : List Node} {tr : List Event}
    (hl : ∀ n, .launch n ∈ tr → n ∈ l) :
    weightWhere w (fun a => ¬ AllEnded a) tr ≤ (l.map fun n => weightWhere w (OnThread · n) tr).sum := by
  classical
  induction tr using List.reverseRecOn with
  | nil => simp [weightWhere]
  | append_singleton a e ih =>
    have i1 := ih (fun n hn => hl n (List.mem_append_left _ hn))
    have e1 : (l.map fun n => weightWhere w (OnThread · n) (a ++ [e])) = l.map fun n =>
        weightWhere w (OnThread · n) a + if e = .resumed ∧ OnThread a n then w (ticks a) else 0 :=
      List.map_congr_left fun n _ => weightWhere_snoc w _ a e
    rw [e1, weightWhere_snoc]
    have grow : ∀ l' : List Node, (l'.map fun n => weightWhere w (OnThread · n) a).sum ≤ (l'.map fun n =>
        weightWhere w (OnThread · n) a + if e = .resumed ∧ OnThread a n then w (ticks a) else 0).sum ∧
        ((∃ n ∈ l', e = .resumed ∧ OnThread a n) → (l'.map fun n => weightWhere w (OnThread · n) a).sum + w (ticks a) ≤
          (l'.map fun n => weightWhere w (OnThread · n) a +
            if e = .resumed ∧ OnThread a n then w (ticks a) else 0).sum) := by
      intro l'
      induction l' with
      | nil => simp
      | cons n l' ih' =>
        obtain ⟨g1, g2⟩ := ih'
        simp only [List.map_cons, List.sum_cons]
        have := hw (ticks a)
        refine ⟨by split <;> omega, ?_⟩
        rintro ⟨m, hm, h⟩
        rcases List.mem_cons.1 hm with rfl | hm
        · rw [if_pos h]; omega
        · have := g2 ⟨m, hm, h⟩
          split <;> omega
    by_cases h : e = .resumed ∧ ¬ AllEnded a
    · rw [if_pos h]
      have : ∃ n, .launch n ∈ a ∧ ¬ JobEnded a n := by
        have := h.2
        unfold AllEnded at this
        push Not at this
        exact this
      obtain ⟨n, h1, h2⟩ := this
      have := (grow l).2 ⟨n, hl n (List.mem_append_left _ h1), h.1, h1, h2⟩
      omega
    · rw [if_neg h]
      have := (grow l).1
      omega

/-! ### The sleep before each tick -/

theorem asked_nonneg (P : Pace) (k : Nat) : 0 ≤ P.asked k := by unfold Pace.asked; omega

theorem asked_zero (P : Pace) : P.asked 0 = 0 := by simp [Pace.asked, Pace.before]

theorem asked_le (P : Pace) (hp : 0 ≤ P.period) (k : Nat) : P.asked k ≤ P.period := by
  cases k with
  | zero => rw [asked_zero]; exact hp
  | succ k =>
    have h1 : (P.before (k + 1)).next = (P.before k).next + P.period := rfl
    have h2 : (P.before (k + 1)).now = max (P.before k).now (P.before k).next + P.late k + P.len k := rfl
    unfold Pace.asked
    omega

theorem before_now (P : Pace) (k : Nat) :
    (P.before (k + 1)).now = (P.before k).now + P.asked k + (P.late k + P.len k) := by
  have h2 : (P.before (k + 1)).now = max (P.before k).now (P.before k).next + P.late k + P.len k := rfl
  unfold Pace.asked
  omega

/-- `run` sleeps, is woken late, and executes ticks -/
theorem ends_sum (P : Pace) (k : Nat) :
    (P.before k).now = P.t0 + weightSum P.asked 0 k + P.busy 0 k := by
  induction k with
  | zero => simp [weightSum_self, busy_self, Pace.before]
  | succ k ih =>
    rw [before_now, ih, weightSum_succ _ (Nat.zero_le _), busy_succ P (Nat.zero_le _)]
    omega

/-- the sleeps between two ticks -/
theorem asked_between (P : Pace) {j k : Nat} (h : j ≤ k) :
    (P.before j).now + weightSum P.asked j (k + 1) ≤ P.begins k := by
  have h1 : (P.before j).now + weightSum P.asked j k ≤ (P.before k).now := by
    induction k, h using Nat.le_induction with
    | base => rw [weightSum_self]; omega
    | succ k hk ih =>
      rw [weightSum_succ _ hk, before_now]
      omega
  rw [weightSum_succ _ h]
  unfold Pace.begins Pace.wake
  unfold Pace.asked at h1 ⊢
  omega

/-! ### One job -/

theorem weight_none {w : Nat → Int} {l : List Event} {n : Node} (h : Event.launch n ∉ l) :
    weightWhere w (OnThread · n) l = 0 := by
  classical
  induction l using List.reverseRecOn with
  | nil => rfl
  | append_singleton a e ih =>
    have h1 : Event.launch n ∉ a := fun h' => h (List.mem_append_left _ h')
    rw [weightWhere_snoc, ih h1, if_neg fun h' => h1 h'.2.1]
    rfl

theorem weight_grow {w : Nat → Int} (hw : ∀ k, 0 ≤ w k) (Q : List Event → Prop) (a b : List Event) :
    weightWhere w Q (a ++ b) ≤ weightWhere w Q a + weightSum w (ticks a) (ticks (a ++ b)) := by
  classical
  induction b using List.reverseRecOn with
  | nil => simp [weightSum_self]
  | append_singleton b e ih =>
    rw [← List.append_assoc, weightWhere_snoc, ticks_snoc]
    by_cases he : e = .resumed
    · have h1 : ticks a ≤ ticks (a ++ b) := by rw [ticks_append]; omega
      simp only [he, true_and, if_true]
      rw [weightSum_succ _ h1]
      have := hw (ticks (a ++ b))
      split <;> omega
    · simp only [he, false_and, if_false, Nat.add_zero, Int.add_zero]
      exact ih

theorem weight_ended {w : Nat → Int} {a : List Event} {n : Node} (h : JobEnded a n) (b : List Event) :
    weightWhere w (OnThread · n) (a ++ b) = weightWhere w (OnThread · n) a := by
  classical
  induction b using List.reverseRecOn with
  | nil => simp
  | append_singleton b e ih =>
    rw [← List.append_assoc, weightWhere_snoc, if_neg fun hh => hh.2.2 (List.mem_append_left _ h), ih, Int.add_zero]

/-- what happens after `k + 1` resumptions happens not before tick `k` begins -/
theorem paced_begins {P : Pace} {tr : List Event} {clock : Nat → Int} (h : Paced P tr clock)
    {pre post : List Event} (htr : tr = pre ++ post) (hk : 0 < ticks pre) :
    P.begins (ticks pre - 1) ≤ clock pre.length := by
  have hm : Event.resumed ∈ pre := by
    by_contra hc
    rw [ticks_zero hc] at hk
    omega
  obtain ⟨a, b, rfl, hb⟩ := split_last hm
  have h1 : ticks (a ++ Event.resumed :: b) = ticks a + 1 := by
    rw [ticks_append]
    have : ticks (Event.resumed :: b) = ticks b + 1 := by simp [Joque.ticks]
    rw [this, ticks_zero hb]
  have h2 := h.ticks a.length (by rw [htr]; simp)
  have h3 : tr.take a.length = a := by rw [htr]; simp
  have h4 := h.mono a.length (a ++ Event.resumed :: b).length (by simp)
  rw [h1, Nat.add_sub_cancel]
  rw [h3] at h2
  omega

/-- `run` sleeps no longer while a job is on its thread than the job takes -/
theorem job_sleeps (hwf : C.dag.WF) (hc : C.threadCount ≠ 0) {ms : List Move} {P : Pace}
    {clock : Nat → Int} (ht : Timed P (exec C ms).trace clock) {D : Node → Int}
    (hD : Spans clock (exec C ms).trace D) {r : RunRecord} (hr : r ∈ (exec C ms).erec.runs)
    (hst : r.status = .ok ∨ r.status = .fail) :
    weightWhere P.asked (OnThread · r.node) (exec C ms).trace ≤ D r.node := by
  obtain ⟨hI, hT⟩ := both_exec (C := C) hwf ms
  have hlw : life r.node (exec C ms).trace = [.before, .launch, .begin false, .end, .log, .after] := by
    rw [hT.lifeRec r hr]
    rcases hst with hs | hs <;> rw [hs] <;> simp [recLife, hc]
  obtain ⟨p, x, q, e, hx, hlp, hlq⟩ := life_split (a := [.before]) (x := .launch) hlw
  obtain ⟨m, y, q, rfl, hy, -, -⟩ := life_split (a := [.begin false]) (x := .end) hlq
  rw [tag_end hy, tag_launch hx] at e
  have hp0 : p ≠ [] := by rintro rfl; simp [life] at hlp
  have hpos := ticks_pos hwf ms e hp0
  have hi : (exec C ms).trace[p.length]? = some (.launch r.node) := by rw [e]; simp
  have e' : (exec C ms).trace = (p ++ .launch r.node :: m) ++ .jobEnd r.node :: q := by rw [e]; simp
  have hj : (exec C ms).trace[(p ++ .launch r.node :: m).length]? = some (.jobEnd r.node) := by
    rw [e']; simp
  have hdd := hD _ _ _ hi hj
  have hnl : Event.launch r.node ∉ p := by
    intro h
    have := launch_mem_life.1 h
    rw [hlp] at this
    simp at this
  have hw : weightWhere P.asked (OnThread · r.node) (exec C ms).trace ≤
      weightSum P.asked (ticks p) (ticks p + ticks m) := by
    have h1 : (exec C ms).trace = (p ++ (.launch r.node :: m ++ [.jobEnd r.node])) ++ q := by rw [e]; simp
    rw [h1, weight_ended (by simp [JobEnded])]
    have h2 := weight_grow (asked_nonneg P) (OnThread · r.node) p (.launch r.node :: m ++ [.jobEnd r.node])
    have h3 : ticks (.launch r.node :: m ++ [.jobEnd r.node]) = ticks m := by
      simp [ticks, List.countP_append]
    rw [weight_none hnl, ticks_append, h3] at h2
    omega
  have t1 : clock p.length ≤ (P.before (ticks p)).now := by
    have h3 := ht.within _ _ hi rfl
    rw [e, take_snoc, ticks_append] at h3
    have h5 : ticks [Event.launch r.node] = 0 := rfl
    rw [h5, Nat.add_zero] at h3
    have h6 : P.ends (ticks p - 1) = (P.before (ticks p - 1 + 1)).now := rfl
    rw [h6, show ticks p - 1 + 1 = ticks p by omega] at h3
    exact h3
  by_cases hm : ticks m = 0
  · rw [hm, Nat.add_zero, weightSum_self] at hw
    have := ht.mono p.length (p ++ .launch r.node :: m).length (by simp)
    omega
  · have h3 : ticks (Event.launch r.node :: m) = ticks m := by simp [ticks]
    have t2 := paced_begins ht.toPaced e' (by rw [ticks_append]; omega)
    rw [ticks_append, h3] at t2
    have t3 := asked_between P (j := ticks p) (k := ticks p + ticks m - 1) (by omega)
    rw [show ticks p + ticks m - 1 + 1 = ticks p + ticks m by omega] at t3
    omega

/-- **C122**, whatever the ticks take: `run( period )` returns at the latest when all jobs could have been executed one
after the other, with two periods for each task and one more, and the time all ticks and the delays of their wake-ups
take. -/
theorem C122_any (hwf : C.dag.WF) (hc : C.threadCount ≠ 0) {ms : List Move} (hf : (exec C ms).phase = .finished)
    {P : Pace} (hp : 0 ≤ P.period) {clock : Nat → Int} (ht : Timed P (exec C ms).trace clock) {D : Node → Int}
    (hD : Spans clock (exec C ms).trace D) :
    P.ends (ticks (exec C ms).trace - 1) ≤ P.t0 + ((exec C ms).erec.executed.map D).sum +
      (2 * C.dag.nodes.length + 1) * P.period + P.busy 0 (ticks (exec C ms).trace) := by
  obtain ⟨hI, hT⟩ := both_exec (C := C) hwf ms
  have hne : (exec C ms).trace ≠ [] := by
    intro h
    have := hT.isFinished hf
    rw [h] at this
    cases this
  have hpos : 0 < ticks (exec C ms).trace := ticks_pos hwf ms (q := []) (by simp) hne
  have h1 := C79_ticks C hwf ms
  have h2 : waitingTicks (exec C ms).trace = ticksWhere (fun a => ¬ AllEnded a) (exec C ms).trace := by
    unfold waitingTicks ticksWhere
    exact List.countP_congr fun i _ => by simp
  have h3 := weight_split (asked_zero P) (asked_le P hp) (Q := fun a => ¬ AllEnded a)
    (fun h => h fun n hn => by cases hn) (exec C ms).trace (.inr (trace_head hwf ms hne))
  have h4 := weight_waiting (w := P.asked) (asked_nonneg P) (l := (exec C ms).erec.executed)
    (tr := (exec C ms).trace) (by
      intro n hn
      obtain ⟨d, hd⟩ := C120_some hwf hf
      obtain ⟨p0, q0, e0⟩ := List.append_of_mem hn
      obtain ⟨p1, er, r, ref, q1, e1, rfl, hst, -⟩ := hd n _ ⟨p0, q0, e0, rfl⟩
      refine List.mem_map.2 ⟨r, List.mem_filter.2 ⟨?_, by simpa using hst⟩, rfl⟩
      rw [← hT.recs, e1, recsOf_append]
      exact List.mem_append_right _ (List.mem_cons_self ..))
  have h5 : ((exec C ms).erec.executed.map fun n => weightWhere P.asked (OnThread · n) (exec C ms).trace).sum ≤
      ((exec C ms).erec.executed.map D).sum := by
    have key : ∀ n ∈ (exec C ms).erec.executed, weightWhere P.asked (OnThread · n) (exec C ms).trace ≤ D n := by
      intro n hn
      obtain ⟨r, hr, rfl⟩ := List.mem_map.1 hn
      obtain ⟨hr, hst⟩ := List.mem_filter.1 hr
      exact job_sleeps hwf hc ht hD hr (by simpa using hst)
    generalize (exec C ms).erec.executed = l at key
    induction l with
    | nil => simp
    | cons n l ih =>
      have := ih fun x hx => key x (List.mem_cons_of_mem _ hx)
      have := key n (List.mem_cons_self ..)
      simp only [List.map_cons, List.sum_cons]
      omega
  have h6 : P.ends (ticks (exec C ms).trace - 1) = (P.before (ticks (exec C ms).trace)).now := by
    show (P.before (ticks (exec C ms).trace - 1 + 1)).now = _
    rw [show ticks (exec C ms).trace - 1 + 1 = ticks (exec C ms).trace by omega]
  rw [h6, ends_sum]
  have h7 : ((ticks (exec C ms).trace - 1 : Nat) : Int) * P.period -
      ticksWhere (fun a => ¬ AllEnded a) (exec C ms).trace * P.period ≤ (2 * C.dag.nodes.length + 1) * P.period := by
    rw [← Int.sub_mul]
    exact Int.mul_le_mul_of_nonneg_right (by rw [← h2]; omega) hp
  omega

/-! ### Examples -/

/-- the first tick takes 100, the others 12, with ticks every 10: `run` never sleeps -/
example : (⟨0, 10, fun _ => 0, fun k => if k = 0 then 100 else 12⟩ : Pace).ends
      (ticks (exec (Ex.cfg 1) Ex.done1).trace - 1) = 232 ∧
    (⟨0, 10, fun _ => 0, fun k => if k = 0 then 100 else 12⟩ : Pace).ends
      (ticks (exec (Ex.cfg 1) Ex.done1).trace - 1) ≤ 0 + (0 + 12 + 12) + (2 * 5 + 1) * 10 + 232 :=
  ⟨by decide +kernel, (C122_any (D := fun n => if n = 1 then 0 else 12) (Ex.wf 1) (by decide) Ex.fin1 (by decide)
    (Ex.early_timed _ _) (spans_of_list (by decide +kernel))).trans (by decide +kernel)⟩

/-- ticks every 10 that take no time: the bound is 20 more than the 110 it takes -/
example : Ex.tens.ends (ticks (exec (Ex.cfg 1) Ex.done1).trace - 1) ≤ 130 :=
  (C122_any (Ex.wf 1) (by decide) Ex.fin1 (by decide) (Ex.early_timed _ _) Ex.early_spans).trans (by decide +kernel)

end Joque
