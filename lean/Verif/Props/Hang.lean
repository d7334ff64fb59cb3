import Verif.Spec.Hang
import Verif.Proof.Hang
import Verif.Props.Exec6
import Verif.Props.Exec3
import Mathlib.Data.Nat.Find

/-! # Jobs that do not come to an end (C116) -/

namespace Joque

variable {C : Cfg}

/-- A schedule that is fair but for the jobs of `H`: these need not go on. -/
structure FairBut (C : Cfg) (H : Node → Prop) (σ : Nat → Move) : Prop where
  ticks : ∀ i, ∃ j, i ≤ j ∧ σ j = .ctl
  begins : ∀ i n, ¬ H n → (runSched C σ i).worker n = .queued → ∃ j, i ≤ j ∧ σ j = .begin n
  ends : ∀ i n, ¬ H n → (runSched C σ i).worker n = .running → ∃ j, i ≤ j ∧ σ j = .finish n
  noFault : ∀ i, σ i ≠ .ctlFail ∧ σ i ≠ .destroy ∧ ∀ f, σ i ≠ .fault f

theorem HeldUp.path {H : Node → Prop} {n c : Node} (h : Relation.ReflTransGen (AfterEdge C.dag) n c)
    (hc : HeldUp C H c) : HeldUp C H n := by
  induction h using Relation.ReflTransGen.head_induction_on with
  | refl => exact hc
  | head he _ ih => exact .after he ih

/-- the execution is started -/
theorem fairBut_starts (hG : Healthy C) {H : Node → Prop} {σ : Nat → Move} (hF : FairBut C H σ) :
    ∃ i, (runSched C σ i).phase.active = true := by
  have hstart : ∀ i, runSched C σ i = St.init ∨ ∃ j, (runSched C σ j).phase.active = true := by
    intro i
    induction i with
    | zero => exact .inl rfl
    | succ i ih =>
      rcases ih with ih | ih
      · have hs : runSched C σ (i + 1) = step C St.init (σ i) := by rw [← ih]; rfl
        cases hm : σ i with
        | ctl =>
          right
          refine ⟨i + 1, ?_⟩
          rw [hs, hm]
          show (prologue C St.init).phase.active = true
          rw [prologue_healthy hG]; rfl
        | ctlFail => exact absurd hm (hF.noFault _).1
        | destroy => exact absurd hm (hF.noFault _).2.1
        | fault f => exact absurd hm ((hF.noFault _).2.2 f)
        | begin n => left; rw [hs, hm]; rfl
        | finish n => left; rw [hs, hm]; rfl
      · exact .inr ih
  obtain ⟨j, _, hj⟩ := hF.ticks 0
  rcases hstart j with h | h
  · refine ⟨j + 1, ?_⟩
    rw [show runSched C σ (j + 1) = step C (runSched C σ j) (σ j) from rfl, h, hj]
    show (prologue C St.init).phase.active = true
    rw [prologue_healthy hG]; rfl
  · exact h

/-- unless it is over, an execution comes to a point after which nothing useful happens -/
theorem fairBut_idling (hG : Healthy C) {H : Node → Prop} {σ : Nat → Move} (hF : FairBut C H σ)
    (hnf : ∀ i, (runSched C σ i).phase ≠ .finished) :
    ∃ i, Idling C (runSched C σ i) ∧ ∀ n, ¬ H n →
      (runSched C σ i).worker n ≠ .queued ∧ (runSched C σ i).worker n ≠ .running := by
  classical
  have hI : ∀ i, Inv C (runSched C σ i) := fun i => by rw [runSched_exec]; exact inv_exec hG.wf _
  obtain ⟨i0, h0⟩ := fairBut_starts hG hF
  have hone : ∀ j, (runSched C σ j).phase.active = true →
      (runSched C σ (j + 1)).phase.active = true ∧
      (remaining (runSched C σ (j + 1)) < remaining (runSched C σ j) ∨
        (remaining (runSched C σ (j + 1)) = remaining (runSched C σ j) ∧
          (runSched C σ (j + 1)).worker = (runSched C σ j).worker ∧
          (σ j = .ctl ∨ runSched C σ (j + 1) = runSched C σ j))) := by
    intro j ha
    have hs : runSched C σ (j + 1) = step C (runSched C σ j) (σ j) := rfl
    have hw := worker_progress (hI j) ha
    cases hm : σ j with
    | ctl =>
      rw [hs, hm]
      obtain ⟨p1, p2⟩ := ctl_progress hG (hI j) ha (hnf j)
      refine ⟨p1, ?_⟩
      rcases p2 with p2 | ⟨p2, p3, -⟩
      · exact .inl p2
      · exact .inr ⟨p2, p3, .inl rfl⟩
    | ctlFail => exact absurd hm (hF.noFault _).1
    | destroy => exact absurd hm (hF.noFault _).2.1
    | fault f => exact absurd hm ((hF.noFault _).2.2 f)
    | begin n =>
      rw [hs, hm]
      by_cases hq : (runSched C σ j).worker n = .queued
      · obtain ⟨p1, p2⟩ := (hw n).1 hq
        exact ⟨by rw [p1]; exact ha, .inl p2⟩
      · rw [(hw n).2.1 hq]; exact ⟨ha, .inr ⟨rfl, rfl, .inr rfl⟩⟩
    | finish n =>
      rw [hs, hm]
      by_cases hq : (runSched C σ j).worker n = .running
      · obtain ⟨p1, p2⟩ := (hw n).2.2.1 hq
        exact ⟨by rw [p1]; exact ha, .inl p2⟩
      · rw [(hw n).2.2.2 hq]; exact ⟨ha, .inr ⟨rfl, rfl, .inr rfl⟩⟩
  have hact : ∀ k, (runSched C σ (i0 + k)).phase.active = true := by
    intro k
    induction k with
    | zero => exact h0
    | succ k ih => exact (hone _ ih).1
  -- the least there is left to do
  have hex : ∃ v, ∃ k, remaining (runSched C σ (i0 + k)) = v := ⟨_, 0, rfl⟩
  obtain ⟨k0, hk0⟩ := Nat.find_spec hex
  have hmin : ∀ k, remaining (runSched C σ (i0 + k0)) ≤ remaining (runSched C σ (i0 + k)) := fun k => by
    rw [hk0]; exact Nat.find_min' hex ⟨k, rfl⟩
  obtain ⟨i, hi⟩ : ∃ i, i = i0 + k0 := ⟨_, rfl⟩
  have hacti : ∀ k, (runSched C σ (i + k)).phase.active = true := fun k => by
    rw [hi, Nat.add_assoc]; exact hact _
  have hconst : ∀ k, remaining (runSched C σ (i + k)) = remaining (runSched C σ i) ∧
      (runSched C σ (i + k)).worker = (runSched C σ i).worker ∧
      ∃ m, runSched C σ (i + k) = ctlN C (runSched C σ i) m := by
    intro k
    induction k with
    | zero => exact ⟨rfl, rfl, 0, rfl⟩
    | succ k ih =>
      obtain ⟨h1, h2, m, h3⟩ := ih
      obtain ⟨-, p⟩ := hone _ (hacti k)
      rcases p with p | ⟨p1, p2, p3⟩
      · have h4 := hmin (k0 + (k + 1))
        rw [← hi, ← Nat.add_assoc, ← hi, ← Nat.add_assoc] at h4
        omega
      · refine ⟨p1.trans h1, p2.trans h2, ?_⟩
        rcases p3 with p3 | p3
        · refine ⟨m + 1, ?_⟩
          rw [ctlN_succ, ← h3]
          show step C (runSched C σ (i + k)) (σ (i + k)) = _
          rw [p3]; rfl
        · exact ⟨m, by rw [← h3]; exact p3⟩
  have hall : ∀ m, ∃ k, runSched C σ (i + k) = ctlN C (runSched C σ i) m := by
    intro m
    induction m with
    | zero => exact ⟨0, rfl⟩
    | succ m ih =>
      obtain ⟨k, hk⟩ := ih
      -- the next portion of the control thread
      have hnext : ∃ l, σ (i + k + l) = .ctl ∧ ∀ l' < l, σ (i + k + l') ≠ .ctl := by
        have : ∃ l, σ (i + k + l) = .ctl := by
          obtain ⟨j, hj, hc⟩ := hF.ticks (i + k)
          exact ⟨j - (i + k), by rw [Nat.add_sub_cancel' hj]; exact hc⟩
        exact ⟨Nat.find this, Nat.find_spec this, fun l' hl' => Nat.find_min this hl'⟩
      obtain ⟨l, hl, hbefore⟩ := hnext
      have hstay : ∀ l' ≤ l, runSched C σ (i + k + l') = runSched C σ (i + k) := by
        intro l'
        induction l' with
        | zero => intro _; rfl
        | succ l' ihl =>
          intro hle
          have e := ihl (by omega)
          obtain ⟨-, p⟩ := hone (i + k + l') (by rw [Nat.add_assoc]; exact hacti _)
          have hrem := (hconst (k + (l' + 1))).1
          have hrem' := (hconst (k + l')).1
          rw [← Nat.add_assoc, ← Nat.add_assoc] at hrem
          rw [← Nat.add_assoc] at hrem'
          rcases p with p | ⟨_, _, p | p⟩
          · rw [hrem'] at p
            change remaining (runSched C σ (i + k + l' + 1)) = _ at hrem
            omega
          · exact absurd p (hbefore l' (by omega))
          · exact p.trans e
      refine ⟨k + l + 1, ?_⟩
      rw [ctlN_succ, ← hk, ← hstay l (Nat.le_refl _)]
      show step C (runSched C σ (i + (k + l))) (σ (i + (k + l))) = _
      rw [← Nat.add_assoc, hl]; rfl
  refine ⟨i, fun m => ?_, fun n hn => ?_⟩
  · obtain ⟨k, hk⟩ := hall m
    rw [← hk]
    exact ⟨hI _, hacti k, hnf _, (hconst k).1⟩
  · constructor
    · intro hw
      obtain ⟨j, hj, hm⟩ := hF.begins i n hn hw
      obtain ⟨k, rfl⟩ := Nat.exists_eq_add_of_le hj
      have := (worker_progress (hI _) (hacti k) n).1 (by rw [(hconst k).2.1]; exact hw)
      have h1 := (hconst (k + 1)).1
      have h2 := (hconst k).1
      change remaining (step C (runSched C σ (i + k)) (σ (i + k))) = _ at h1
      rw [hm] at h1
      omega
    · intro hw
      obtain ⟨j, hj, hm⟩ := hF.ends i n hn hw
      obtain ⟨k, rfl⟩ := Nat.exists_eq_add_of_le hj
      have := (worker_progress (hI _) (hacti k) n).2.2.1 (by rw [(hconst k).2.1]; exact hw)
      have h1 := (hconst (k + 1)).1
      have h2 := (hconst k).1
      change remaining (step C (runSched C σ (i + k)) (σ (i + k))) = _ at h1
      rw [hm] at h1
      omega

theorem done_path {s : St} (hI : Inv C s) {a b : Node} (h : Relation.TransGen (AfterEdge C.dag) a b)
    (ha : ∀ m, AfterEdge C.dag a m → s.flags.done m = true) : s.flags.done b = true := by
  induction h with
  | single he => exact ha _ he
  | tail _ he ih =>
    obtain ⟨r, hr, rfl⟩ := List.mem_map.1 ((hI.doneIff _).1 ih)
    exact (hI.recs r hr).preds _ he

/-- jobs that were given to threads may be executing at the same time -/
theorem handles_together {s : St} (hI : Inv C s) (hact : s.phase.active = true)
    (hl : ∀ x ∈ handles s, x.launched = true) : Together C ((handles s).map Handle.node) := by
  have hnd := hI.nodup
  unfold allNodes at hnd
  rw [List.append_assoc, List.nodup_append] at hnd
  refine ⟨hnd.1, ?_, ?_, ?_⟩
  · intro n hn
    obtain ⟨x, hx, rfl⟩ := List.mem_map.1 hn
    have h1 := (hI.launched x hx (hl x hx)).2.2.1
    by_contra hns
    have := (hI.invalActive hact x.node (hI.handle_node hx)).2 hns
    rw [this] at h1; cases h1
  · intro a ha b hb hab
    obtain ⟨x, hx, rfl⟩ := List.mem_map.1 ha
    have := done_path hI hab (hI.preds x hx)
    have h2 := (hI.doneIff b).1 this
    exact hnd.2.2 b hb b (List.mem_append_left _ h2) rfl
  · intro a ha b hb hne
    obtain ⟨x, hx, rfl⟩ := List.mem_map.1 ha
    obtain ⟨y, hy, rfl⟩ := List.mem_map.1 hb
    exact hI.excl x hx y hy (hl x hx) (hl y hy) hne

/-- **C116**.  Some jobs may hang.  If fewer of them than there are threads can be executing at the same
time, every task gets its record that is not one of them, needs no resource of them, and does not come after
such a task. -/
theorem C116_others (C : Cfg) (hG : Healthy C) (H : Node → Prop)
    (hfew : ∀ l, Together C l → (∀ n ∈ l, H n) → l.length < C.threadCount)
    (σ : Nat → Move) (hF : FairBut C H σ) :
    ∃ i, ∀ n ∈ C.dag.nodes, ¬ HeldUp C H n → Recorded (runSched C σ i).trace n := by
  by_cases hnf : ∀ i, (runSched C σ i).phase ≠ .finished
  · obtain ⟨i, hst, hw⟩ := fairBut_idling hG hF hnf
    refine ⟨i, fun n hn hup => ?_⟩
    obtain ⟨hI, hact, -⟩ := hst 0
    have hI : Inv C (runSched C σ i) := hI
    have hact : (runSched C σ i).phase.active = true := hact
    have hT : TInv C (runSched C σ i) := by rw [runSched_exec]; exact tinv_exec hG.wf _
    obtain ⟨hlaunched, -⟩ := idling_end hG hst
    have hH : ∀ x ∈ handles (runSched C σ i), H x.node := by
      intro x hx
      by_contra hno
      obtain ⟨h1, h2⟩ := hlaunched x hx
      have h3 := (hI.launched x hx h1).2.1
      have h4 := hw _ hno
      cases hwx : (runSched C σ i).worker x.node <;> simp_all
    have hpart := hI.part hact n hn
    unfold allNodes at hpart
    simp only [List.mem_append] at hpart
    rcases hpart with (h1 | h1) | h1
    · obtain ⟨x, hx, rfl⟩ := List.mem_map.1 h1
      exact absurd (.hangs (hH x hx)) hup
    · obtain ⟨r, hr, rfl⟩ := List.mem_map.1 h1
      exact ⟨r, by rw [hT.recs]; exact hr, rfl⟩
    · rcases idling_blocked hG hst h1 with ⟨-, h2⟩ | ⟨c, -, h2, h3⟩
      · have := hfew _ (handles_together hI hact fun x hx => (hlaunched x hx).1) (by
          intro n hn
          obtain ⟨x, hx, rfl⟩ := List.mem_map.1 hn
          exact hH x hx)
        rw [List.length_map] at this
        omega
      · refine absurd (HeldUp.path h2 ?_) hup
        rcases h3 with ⟨m, hm, x, hx, rfl⟩ | ⟨r, hr, x, hx, hxr⟩
        · exact .after hm (.hangs (hH x hx))
        · exact .resource (hH x hx) hxr hr
  · obtain ⟨i, hi⟩ := not_forall.1 hnf
    have hi : (runSched C σ i).phase = .finished := not_not.1 hi
    refine ⟨i, fun n hn _ => ?_⟩
    rw [runSched_exec] at hi ⊢
    have hT := tinv_exec hG.wf ((List.range i).map σ)
    obtain ⟨h1, -⟩ := C02_one_record C hG.wf _ hi
    obtain ⟨r, hr, e⟩ := List.mem_map.1 (h1.mem_iff.2 hn)
    exact ⟨r, by rw [hT.recs]; exact hr, e⟩

/-- **C116**, fewer jobs that may hang than threads -/
theorem C116_few (C : Cfg) (hG : Healthy C) (H : List Node) (hfew : H.length < C.threadCount)
    (σ : Nat → Move) (hF : FairBut C (· ∈ H) σ) :
    ∃ i, ∀ n ∈ C.dag.nodes, ¬ HeldUp C (· ∈ H) n → Recorded (runSched C σ i).trace n :=
  C116_others C hG _ (fun _ hl hH => Nat.lt_of_le_of_lt (hl.nodup.length_le_of_subset hH) hfew) σ hF

/-- **C116**: what comes after a job that hangs is never started, and the execution is never over, not
even if it is destroyed or fails. -/
theorem C116_after (C : Cfg) (hwf : C.dag.WF) (ms : List Move) (h : Node)
    (hr : Running (exec C ms).trace h) :
    ¬ Recorded (exec C ms).trace h ∧
    (∀ n, Relation.TransGen (AfterEdge C.dag) n h → ¬ Recorded (exec C ms).trace n ∧
      (∀ er, .beforeRun er n ∉ (exec C ms).trace) ∧ ¬ JobBegan (exec C ms).trace n) ∧
    (exec C ms).phase ≠ .finished ∧ (∀ e, (exec C ms).phase ≠ .threw e) ∧ (exec C ms).phase ≠ .destroyed := by
  obtain ⟨hI, hT⟩ := both_exec hwf ms
  have hnr : ¬ Recorded (exec C ms).trace h := by
    intro hrec
    obtain ⟨-, r, -, -, hl⟩ := rec_split (rest := []) hT (by simp) hrec
    obtain ⟨x, hx, -, hx3⟩ := recLife_snoc C.threadCount r.status
    obtain ⟨b, hb⟩ := hr.1
    have h1 : Tag.begin b ∈ life h (exec C ms).trace := List.mem_filterMap.2 ⟨_, hb, by simp [tagOf]⟩
    rw [hl, hx] at h1
    have h2 := hx3 ⟨b, by simpa using h1⟩
    exact hr.2 (end_mem_life.2 (by rw [hl, hx]; simp [h2]))
  have hbef : ∀ m, (∃ er, Event.beforeRun er m ∈ (exec C ms).trace) → ∀ k, AfterEdge C.dag m k →
      Recorded (exec C ms).trace k := by
    rintro m ⟨er, hm⟩ k hk
    obtain ⟨u, v, huv⟩ := List.append_of_mem hm
    obtain ⟨r, hr, e⟩ := (hT.always u _ v huv).2.2.1 k hk
    exact ⟨r, by rw [huv, recsOf_append]; exact List.mem_append_left _ hr, e⟩
  have hrb : ∀ m, Recorded (exec C ms).trace m → ∃ er, Event.beforeRun er m ∈ (exec C ms).trace := by
    intro m hm
    obtain ⟨-, r, -, -, hl⟩ := rec_split (rest := []) hT (by simp) hm
    have hb : Tag.before ∈ life m (exec C ms).trace := by
      rw [hl]; unfold recLife; split <;> (try split) <;> simp
    obtain ⟨ev', hev', htag⟩ := List.mem_filterMap.1 hb
    revert htag
    cases ev' <;> simp [tagOf]
    rintro rfl
    exact ⟨_, hev'⟩
  have hpath : ∀ n, Relation.TransGen (AfterEdge C.dag) n h → ∀ er, .beforeRun er n ∉ (exec C ms).trace := by
    intro n hn
    induction hn using Relation.TransGen.head_induction_on with
    | single he => exact fun er hm => hnr (hbef _ ⟨er, hm⟩ _ he)
    | head he _ ih =>
      intro er hm
      obtain ⟨er', h'⟩ := hrb _ (hbef _ ⟨er, hm⟩ _ he)
      exact ih er' h'
  refine ⟨hnr, fun n hn => ⟨fun hrec => ?_, hpath n hn, ?_⟩, ?_, ?_, ?_⟩
  · obtain ⟨er, he⟩ := hrb n hrec
    exact hpath n hn er he
  · rintro ⟨b, hb⟩
    obtain ⟨u, v, huv⟩ := List.append_of_mem hb
    obtain ⟨k, hk, hkh⟩ : ∃ k, AfterEdge C.dag n k ∧ Relation.ReflTransGen (AfterEdge C.dag) k h :=
      Relation.TransGen.head'_iff.1 hn
    obtain ⟨r, hr', e⟩ := (hT.always u _ v huv).2.2.1 k hk
    have hk2 : Recorded (exec C ms).trace k :=
      ⟨r, by rw [huv, recsOf_append]; exact List.mem_append_left _ hr', e⟩
    rcases Relation.reflTransGen_iff_eq_or_transGen.1 hkh with rfl | h2
    · exact hnr hk2
    · obtain ⟨er, he⟩ := hrb k hk2
      exact hpath k h2 er he
  · intro hp
    obtain ⟨h1, -⟩ := C02_one_record C hwf ms hp
    have hb := hr.1
    have hn : h ∈ C.dag.nodes := by
      obtain ⟨b, hb⟩ := hb
      by_contra hno
      have hin : h ∉ allNodes (exec C ms) := fun hin => hno (hI.inNodes h hin)
      have h1 : Tag.begin b ∈ life h (exec C ms).trace := List.mem_filterMap.2 ⟨_, hb, by simp [tagOf]⟩
      rcases hT.lifeOther h hin with h2 | ⟨h2, -⟩
      · rw [h2] at h1; cases h1
      · exact hno h2
    obtain ⟨r, hr', e⟩ := List.mem_map.1 (h1.mem_iff.2 hn)
    exact hnr ⟨r, by rw [hT.recs]; exact hr', e⟩
  · exact fun e hp => (C18_joined C hwf ms (.inl ⟨e, hp⟩) []).1 h hr
  · exact fun hp => (C18_joined C hwf ms (.inr hp) []).1 h hr

/-- **C116**: while a job hangs, no job that needs one of its resources begins; and while jobs hang on all
threads, none begins. -/
theorem C116_waits (C : Cfg) (hwf : C.dag.WF) (ms : List Move) (pre post : List Event)
    (htr : (exec C ms).trace = pre ++ post) :
    (∀ h n r, Running pre h → ¬ JobEnded post h → r ∈ C.resources h → r ∈ C.resources n → ¬ JobBegan post n) ∧
    (∀ l : List Node, l.Nodup → (∀ h ∈ l, Running pre h ∧ ¬ JobEnded post h) →
      max 1 C.threadCount ≤ l.length → ∀ n, ¬ JobBegan post n) := by
  have hT := tinv_exec hwf ms
  have hrun : ∀ u v, post = u ++ v → ∀ h, Running pre h → ¬ JobEnded post h → Running (pre ++ u) h := by
    rintro u v rfl h ⟨⟨b, hb⟩, he⟩ hno
    refine ⟨⟨b, List.mem_append_left _ hb⟩, fun hend => ?_⟩
    rcases List.mem_append.1 hend with h1 | h1
    · exact he h1
    · exact hno (List.mem_append_left _ h1)
  constructor
  · rintro h n r hr hno h1 h2 ⟨b, hb⟩
    obtain ⟨u, v, huv⟩ := List.append_of_mem hb
    have hg := (hT.always (pre ++ u) (.jobBegin n b) v (by rw [htr, huv]; simp)).2.2.2.1 h (hrun u _ huv h hr hno)
    exact hg.2 r h2 h1
  · rintro l hnd hl hlen n ⟨b, hb⟩
    obtain ⟨u, v, huv⟩ := List.append_of_mem hb
    have hg := (hT.always (pre ++ u) (.jobBegin n b) v (by rw [htr, huv]; simp)).2.2.2.2.1 l hnd
      fun m hm => hrun u _ huv m (hl m hm).1 (hl m hm).2
    omega

/-! ## Examples -/

/-- one round in which the jobs of `H` do not end -/
def hangMoves (C : Cfg) (H : List Node) : List Move :=
  .ctl :: (C.dag.nodes.map .begin ++ (C.dag.nodes.filter (· ∉ H)).map .finish)

def hangRobin (C : Cfg) (H : List Node) (i : Nat) : Move :=
  (hangMoves C H).getD (i % (hangMoves C H).length) .ctl

/-- the hypothesis of `C116_few` is met for every dag -/
theorem hangRobin_fair (C : Cfg) (hwf : C.dag.WF) (H : List Node) : FairBut C (· ∈ H) (hangRobin C H) := by
  have hits : ∀ m ∈ hangMoves C H, ∀ i, ∃ j, i ≤ j ∧ hangRobin C H j = m := by
    intro m hm i
    obtain ⟨k, hk, rfl⟩ := List.getElem_of_mem hm
    refine ⟨k + (hangMoves C H).length * i, ?_, ?_⟩
    · have : 1 ≤ (hangMoves C H).length := by omega
      have := Nat.mul_le_mul_right i this
      omega
    · unfold hangRobin
      rw [Nat.add_mul_mod_self_left, Nat.mod_eq_of_lt hk]
      simp [hk]
  have hw : ∀ i n, (runSched C (hangRobin C H) i).worker n ≠ .idle → n ∈ C.dag.nodes := by
    intro i n h
    rw [runSched_exec] at h
    have hI := inv_exec hwf ((List.range i).map (hangRobin C H))
    rcases hI.workerOnly n h with ⟨h1, _⟩ | ⟨x, h1, rfl, _⟩
    · exact hI.inNodes n (by unfold allNodes; simp [h1])
    · exact hI.handle_node h1
  refine ⟨fun i => hits _ (by simp [hangMoves]) i, ?_, ?_, ?_⟩
  · intro i n _ h
    exact hits _ (by simp [hangMoves, hw i n (by rw [h]; simp)]) i
  · intro i n hn h
    exact hits _ (by simp [hangMoves, hw i n (by rw [h]; simp), hn]) i
  · intro i
    have hmem : hangRobin C H i ∈ hangMoves C H := by
      unfold hangRobin
      have : i % (hangMoves C H).length < (hangMoves C H).length := Nat.mod_lt _ (by simp [hangMoves])
      simp [this]
    refine ⟨?_, ?_, fun k => ?_⟩ <;> intro h <;> rw [h] at hmem <;> simp [hangMoves] at hmem

theorem Ex.par_healthy (tc : Nat) : Healthy (Ex.par tc) where
  wf := Ex.par_wf tc
  acyclic := by
    rintro ⟨n, hn⟩
    have : ∀ a b, ¬ AfterEdge (Ex.par tc).dag a b := by
      intro a b h
      simp [AfterEdge, HasEdge, Ex.par] at h
    cases hn with
    | single h => exact this _ _ h
    | tail _ h => exact this _ _ h
  jobs := fun _ _ => rfl
  answers := fun _ _ => ⟨_, rfl⟩
  codes := by
    intro n _ rr h
    cases h; simp

/-- of three jobs on two threads 1 hangs; 2 needs its resource; 3 is reported -/
example : (∃ i, Recorded (runSched (Ex.par 2) (hangRobin (Ex.par 2) [1]) i).trace 3) ∧
    HeldUp (Ex.par 2) (· ∈ [1]) 2 := by
  constructor
  · obtain ⟨i, hi⟩ := C116_few (Ex.par 2) (Ex.par_healthy 2) [1] (by decide) _ (hangRobin_fair _ (Ex.par_wf 2) _)
    refine ⟨i, hi 3 (by decide) ?_⟩
    intro h
    cases h with
    | hangs h => simp at h
    | resource _ _ hn => simp [Ex.par] at hn
    | after ha _ => simp [AfterEdge, HasEdge, Ex.par] at ha
  · exact .resource (h := 1) (r := 7) (by simp) (by decide) (by decide)

/-- the hypothesis of `C116_after` and of `C116_waits` is met -/
example : Running (exec (Ex.par 2) ((List.range 60).map (hangRobin (Ex.par 2) [1]))).trace 1 :=
  ⟨⟨false, by decide +kernel⟩, by unfold JobEnded; decide +kernel⟩

/-- as many jobs that hang as threads: nothing else is done -/
example : (runSched (Ex.par 1) (hangRobin (Ex.par 1) [1]) 400).erec.runs = [] ∧
    (runSched (Ex.par 2) (hangRobin (Ex.par 2) [1]) 400).erec.runs.map RunRecord.node = [3] := by decide +kernel

end Joque
