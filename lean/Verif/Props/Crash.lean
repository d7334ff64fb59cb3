import Verif.Spec.Crash
import Verif.Props.Build
import Verif.Props.Process2
import Verif.Props.Words
import Verif.Model.Crash

/-!
# C82: interrupted builds

The program dies at any moment of an execution; the same dag is executed again.
-/

namespace Joque

theorem ended_began {C : Cfg} (hwf : C.dag.WF) {ms : List Move} {tr : List Event}
    (hpre : tr <+: (exec C ms).trace) {n : Node} (h : JobEnded tr n) : JobBegan tr n := by
  rw [end_mem_life] at h
  rw [JobBegan]
  have key : ∀ {l : List Tag}, (l <+: [.before, .after] ∨
      l <+: [.before, .launch, .begin false, .end, .log, .after] ∨
      l <+: [.before, .begin true, .end, .log, .after]) → Tag.end ∈ l → ∃ b, Tag.begin b ∈ l := by
    rintro l (h | h | h) he
    · have := h.subset he
      simp at this
    · refine ⟨false, ?_⟩
      obtain ⟨t, ht⟩ := h
      match l, ht, he with
      | [_, _, _], ht, he => simp at ht; simp [ht] at he
      | [_, _], ht, he => simp at ht; simp [ht] at he
      | [_], ht, he => simp at ht; simp [ht] at he
      | _ :: _ :: _ :: _ :: l, ht, he => simp at ht; simp [ht]
    · refine ⟨true, ?_⟩
      obtain ⟨t, ht⟩ := h
      match l, ht, he with
      | [_, _], ht, he => simp at ht; simp [ht] at he
      | [_], ht, he => simp at ht; simp [ht] at he
      | _ :: _ :: _ :: l, ht, he => simp at ht; simp [ht]
  have hle : life n tr <+: life n (exec C ms).trace := hpre.filterMap _
  obtain ⟨b, hb⟩ := key ((C15_node_history C hwf ms n).imp hle.trans
    (.imp (fun h => hle.trans h.2) (fun h => hle.trans h.2))) h
  exact begin_mem_life.2 ⟨b, hb⟩

/-- the retcode file says that the process has to run -/
theorem inval_of_retcode (tf : TimeFmt) {fs : FS} {p : Process} (h : ¬ RetcodeOk fs p) :
    (p.isInvalidated tf fs).invalidated = true := by
  unfold Process.isInvalidated
  cases hc : retcodeCheck fs p with
  | none => exact absurd (retcodeOk_of_none hc) h
  | some r =>
    unfold retcodeCheck at hc
    split at hc
    · cases hc
    · split at hc
      · cases hc; rfl
      · split at hc
        · cases hc; rfl
        · cases hc

/-- an input is not older than any output there is -/
theorem inval_of_newer (tf : TimeFmt) {fs : FS} {p : Process} (ho : p.output ≠ []) {i : Str}
    (hi : i ∈ p.input) (h : ∀ o ∈ p.output, ∀ f, fs o = some f → f.time ≤ writeTime fs i) :
    (p.isInvalidated tf fs).invalidated = true := by
  by_cases hr : RetcodeOk fs p
  · obtain ⟨m, hm, -, hiff⟩ := isInvalidated_times tf fs p hr (List.ne_nil_of_mem hi) ho
    rw [hiff]
    cases hf : fs m with
    | none => exact .inl rfl
    | some f =>
      refine .inr ⟨i, hi, ?_⟩
      have : writeTime fs m = f.time := by unfold writeTime; rw [hf]
      rw [this]
      exact h m hm f hf
  · exact inval_of_retcode tf hr

section
variable {C : Cfg} {proc : Node → Process} {clock : Nat → Int} {fs : Nat → FS} {ms : List Move}
  {crash : FS} {tr : List Event}

theorem crash_node (hwf : C.dag.WF) (hpre : tr <+: (exec C ms).trace) {m : Node} (h : JobBegan tr m) :
    m ∈ C.dag.nodes ∧ Stale C.dag C.ask m := by
  obtain ⟨b, hb⟩ := h
  obtain ⟨pre, post, htr⟩ := List.append_of_mem (hpre.subset hb)
  exact ⟨(C02_at_most_once C hwf ms pre post m b htr).1,
    ((tinv_exec hwf ms).always pre _ post htr).2.2.2.2.2.1⟩

theorem crash_node_take (hwf : C.dag.WF) (hpre : tr <+: (exec C ms).trace) {k : Nat} {m : Node}
    (h : Running (tr.take k) m) : m ∈ C.dag.nodes := by
  obtain ⟨⟨b, hb⟩, -⟩ := h
  exact (crash_node hwf hpre ⟨b, List.mem_of_mem_take hb⟩).1

/-- a file only `m` writes stays while `m` does not execute -/
theorem crash_idle (hwf : C.dag.WF) (hpre : tr <+: (exec C ms).trace) (hp : Plan C.dag proc)
    (W : BuildRun C.dag C.outcome proc tr clock fs) {m : Node} (hm : m ∈ C.dag.nodes)
    {q : Str} (hq : q ∈ (proc m).writes) {i j : Nat} (hij : i ≤ j) (hj : j ≤ tr.length)
    (h : ∀ k, i ≤ k → k < j → ¬ Running (tr.take k) m) : fs j q = fs i q := by
  refine W.stable hij hj fun k h1 h2 n hn hqn => ?_
  by_cases hnm : n = m
  · exact h k h1 h2 (hnm ▸ hn)
  · exact hp.disjoint n (crash_node_take hwf hpre hn) m hm hnm q hqn hq

theorem crash_same (hwf : C.dag.WF) (hpre : tr <+: (exec C ms).trace) (hp : Plan C.dag proc)
    (hcr : CrashFS proc tr (fs tr.length) crash) {m : Node}
    (hm : m ∈ C.dag.nodes) (hnr : ¬ Running tr m) {q : Str}
    (hq : q ∈ (proc m).writes) : crash q = fs tr.length q := by
  refine hcr q fun n hn hqn => ?_
  by_cases h : n = m
  · exact hnr (h ▸ hn)
  · exact hp.disjoint n ((crash_node hwf hpre hn.1).1) m hm h q hqn hq

theorem crash_source (hwf : C.dag.WF) (hpre : tr <+: (exec C ms).trace)
    (W : BuildRun C.dag C.outcome proc tr clock fs)
    (hcr : CrashFS proc tr (fs tr.length) crash) {q : Str}
    (hq : ∀ m ∈ C.dag.nodes, q ∉ (proc m).writes) : crash q = fs 0 q := by
  rw [hcr q fun n hn => hq n (crash_node hwf hpre hn.1).1]
  exact W.stable (Nat.zero_le _) (Nat.le_refl _) fun _ _ _ n hn => hq n (crash_node_take hwf hpre hn)

/-- the files of a task whose job has not begun -/
theorem crash_fresh (hwf : C.dag.WF) (hpre : tr <+: (exec C ms).trace) (hp : Plan C.dag proc)
    (W : BuildRun C.dag C.outcome proc tr clock fs)
    (hcr : CrashFS proc tr (fs tr.length) crash) {m : Node}
    (hm : m ∈ C.dag.nodes) (hnb : ¬ JobBegan tr m) {q : Str}
    (hq : q ∈ (proc m).writes) : crash q = fs 0 q := by
  rw [crash_same hwf hpre hp hcr hm (fun h => hnb h.1) hq]
  refine crash_idle hwf hpre hp W hm hq (Nat.zero_le _) (Nat.le_refl _) fun k _ _ hr => hnb ?_
  obtain ⟨⟨b, h⟩, _⟩ := hr
  exact ⟨b, List.mem_of_mem_take h⟩

/-- the files of a task that succeeded -/
theorem crash_made (hwf : C.dag.WF) (hpre : tr <+: (exec C ms).trace) (hp : Plan C.dag proc)
    (W : BuildRun C.dag C.outcome proc tr clock fs)
    (hcr : CrashFS proc tr (fs tr.length) crash) {m : Node}
    (hm : m ∈ C.dag.nodes) (hs : Succeeded tr C.outcome m) :
    ∃ b e : Nat, b < tr.length ∧ (∃ x, tr[b]? = some (.jobBegin m x)) ∧
      tr[e]? = some (.jobEnd m) ∧
      (∀ o ∈ (proc m).output, ∃ f, crash o = some f ∧ clock b < f.time ∧
        ∀ k, tr[k]? = some (.jobEnd m) → f.time < clock (k + 1)) ∧
      RetcodeOk crash (proc m) := by
  obtain ⟨hend, rr, hrr, h0⟩ := hs
  obtain ⟨x, hx⟩ := ended_began hwf hpre hend
  obtain ⟨b, hb⟩ := List.mem_iff_getElem?.1 hx
  obtain ⟨e, he⟩ := List.mem_iff_getElem?.1 hend
  have made : ∀ e, tr[e]? = some (.jobEnd m) →
      (∀ q ∈ (proc m).writes, crash q = fs (e + 1) q) ∧
      (∀ o ∈ (proc m).output, ∃ f, fs (e + 1) o = some f ∧ clock b < f.time) ∧
      ∀ q, (proc m).retcodeFile = some q → ∃ f, fs (e + 1) q = some f ∧ readInt f.content = 0 := by
    intro e he
    have hel : e < tr.length := (List.getElem?_eq_some_iff.1 he).1
    obtain ⟨os, before, h1, h2, h3⟩ := W.runs e m he
    have hrr' := hrr
    rw [h1] at hrr'
    obtain ⟨hc, hx0⟩ := run_ok hrr' h0
    obtain ⟨hw, hout⟩ := h3 hc hx0
    obtain ⟨w1, w2⟩ := run_ok_writes hrr' h0 hw
    refine ⟨fun q hq => ?_, fun o ho => ?_, fun q hq => ?_⟩
    · rw [crash_same hwf hpre hp hcr hm (fun h => h.2 hend) hq]
      refine crash_idle hwf hpre hp W hm hq (by omega) (Nat.le_refl _) fun k hk _ hrun => hrun.2 ?_
      exact mem_take_of_getElem? he (by omega)
    · obtain ⟨f, hf, hj⟩ := hout o ho
      refine ⟨f, ?_, hj b x hb⟩
      rw [h2 o (List.mem_append_left _ ho), w1 o fun hc => hp.retcode _ hm o hc ho, hf]
    · rw [h2 q (by simp [Process.writes, hq])]
      exact w2 q hq
  refine ⟨b, e, (List.getElem?_eq_some_iff.1 hb).1, ⟨x, hb⟩, he, fun o ho => ?_, fun q hq => ?_⟩
  · obtain ⟨m1, m2, -⟩ := made e he
    obtain ⟨f, hf, hb'⟩ := m2 o ho
    have hcf : crash o = some f := by rw [m1 o (List.mem_append_left _ ho)]; exact hf
    refine ⟨f, hcf, hb', fun k hk => ?_⟩
    obtain ⟨k1, -, -⟩ := made k hk
    have : fs (k + 1) o = some f := by rw [← k1 o (List.mem_append_left _ ho)]; exact hcf
    have hkl : k < tr.length := (List.getElem?_eq_some_iff.1 hk).1
    exact W.past (by omega) this
  · obtain ⟨m1, -, m3⟩ := made e he
    obtain ⟨f, hf, hz⟩ := m3 q hq
    exact ⟨f, by rw [m1 q (by simp [Process.writes, hq])]; exact hf, hz⟩


/-- a process says so itself -/
theorem selfStale_iff {proc : Node → Process} {tf : TimeFmt} {ask : Node → InvalOut} {f : FS} {m : Node}
    (h : ask m = .answer ((proc m).isInvalidated tf f)) :
    SelfStale ask m ↔ ((proc m).isInvalidated tf f).invalidated = true := by
  unfold SelfStale
  rw [h]
  constructor
  · rintro ⟨log, hlog⟩
    rw [InvalOut.answer.injEq] at hlog
    rw [hlog]
  · intro h2
    exact ⟨_, by rw [← h2]⟩

theorem reach_node (hwf : C.dag.WF) {n m : Node}
    (h : Relation.ReflTransGen (HasEdge C.dag .invalidatedBy) n m) (hn : n ∈ C.dag.nodes) :
    m ∈ C.dag.nodes := by
  rcases Relation.ReflTransGen.cases_tail h with rfl | ⟨k, _, hk⟩
  · exact hn
  · exact (hwf.closed _ hk).2

/-- **C82**, no work is repeated: whatever the next execution finds out of date was out of date in the
interrupted one and has not succeeded there, or is invalidated by such a task. -/
theorem C82_not_repeated (hwf : C.dag.WF) (hpre : tr <+: (exec C ms).trace) (tf : TimeFmt) (hp : Plan C.dag proc)
    (W : BuildRun C.dag C.outcome proc tr clock fs) (hask : AsksAt C proc tf (fs 0))
    (hpres : ∀ n ∈ C.dag.nodes, ((proc n).isInvalidated tf (fs 0)).invalidated = false →
      ∀ o ∈ (proc n).output, (fs 0 o).isSome)
    (hcr : CrashFS proc tr (fs tr.length) crash)
    (ask2 : Node → InvalOut) (hask2 : ∀ n ∈ C.dag.nodes, ask2 n = .answer ((proc n).isInvalidated tf crash))
    {n : Node} (hn : n ∈ C.dag.nodes) (hs2 : Stale C.dag ask2 n) :
    ∃ m, Relation.ReflTransGen (HasEdge C.dag .invalidatedBy) n m ∧
      Stale C.dag C.ask m ∧ ¬ Succeeded tr C.outcome m := by
  obtain ⟨hI, hT⟩ := both_exec hwf ms
  have hbn : ∀ {m}, JobBegan tr m → m ∈ C.dag.nodes ∧ Stale C.dag C.ask m := crash_node hwf hpre
  have hclock : ∀ {q f}, fs 0 q = some f → ∀ b, f.time < clock b := fun h b =>
    Int.lt_of_lt_of_le (W.old _ _ h) (W.mono (Nat.zero_le b))
  -- nothing is repeated
  have hB : ∀ {n}, n ∈ C.dag.nodes → SelfStale ask2 n →
      ∃ m, Relation.ReflTransGen (HasEdge C.dag .invalidatedBy) n m ∧
        Stale C.dag C.ask m ∧ ¬ Succeeded tr C.outcome m := by
    intro n hn hs
    have hs' := (selfStale_iff (hask2 n hn)).1 hs
    by_cases hst : Stale C.dag C.ask n
    · by_cases hsu : Succeeded tr C.outcome n
      · by_contra hno
        have hun : ∀ {m}, HasEdge C.dag .invalidatedBy n m → Stale C.dag C.ask m →
            Succeeded tr C.outcome m := fun {m} h1 h2 => by
          by_contra h3
          exact hno ⟨m, .single h1, h2, h3⟩
        obtain ⟨b, e, hbl, ⟨x, hb⟩, he, hout, hret⟩ := crash_made hwf hpre hp W hcr hn hsu
        obtain ⟨pre, post, htr, hlen⟩ : ∃ pre post,
            tr = pre ++ .jobBegin n x :: post ∧ pre.length = b := by
          refine ⟨tr.take b, tr.drop (b + 1), ?_, by simp; omega⟩
          have := List.getElem?_eq_some_iff.1 hb
          obtain ⟨h1, h2⟩ := this
          rw [← h2, ← List.drop_eq_getElem_cons h1, List.take_append_drop]
        obtain ⟨tail, htail⟩ := hpre
        have htr' : (exec C ms).trace = pre ++ .jobBegin n x :: (post ++ tail) := by
          rw [← htail, htr]; simp
        have hpre : tr <+: (exec C ms).trace := ⟨tail, htail⟩
        have hin : ∀ i ∈ (proc n).input, ∃ f, crash i = some f ∧ f.time < clock b := by
          intro i hi
          rcases hp.inputs _ hn i hi with hsrc | ⟨m, hm, hmo, hma, hmi⟩
          · obtain ⟨f, hf⟩ := Option.isSome_iff_exists.1 (W.sources _ hn i hi hsrc)
            exact ⟨f, by rw [crash_source hwf hpre W hcr hsrc]; exact hf, hclock hf b⟩
          · by_cases hmb : JobBegan tr m
            · have hms := hun hmi (hbn hmb).2
              obtain ⟨c1, c2, c3⟩ := C01_ordering C hwf ms pre (post ++ tail) _ _ x htr' hma
              have hmb' : JobBegan pre m := by
                obtain ⟨b2, h2⟩ := hmb
                rw [htr] at h2
                rcases List.mem_append.1 h2 with h2 | h2
                · exact ⟨b2, h2⟩
                · rcases List.mem_cons.1 h2 with h2 | h2
                  · exfalso
                    have hrec' := (rec_split hT htr' c1).1
                    simp only [Event.jobBegin.injEq] at h2
                    have : Tag.begin x ∈ life m (Event.jobBegin n x :: (post ++ tail)) := by
                      rw [h2.1]
                      simp [life, tagOf]
                    rw [hrec'] at this; cases this
                  · exact absurd ⟨b2, List.mem_append_left _ h2⟩ c3
              have he2 : JobEnded pre m := by
                by_contra hne; exact c2 ⟨hmb', hne⟩
              obtain ⟨e2, he2⟩ := List.mem_iff_getElem?.1 he2
              have hlt : e2 < pre.length := (List.getElem?_eq_some_iff.1 he2).1
              have he2' : tr[e2]? = some (.jobEnd m) := by
                rw [htr, List.getElem?_append_left hlt]; exact he2
              obtain ⟨b2, e2', -, -, -, hout2, -⟩ := crash_made hwf hpre hp W hcr hm hms
              obtain ⟨f, hf, -, hlast⟩ := hout2 i hmo
              exact ⟨f, hf, Int.lt_of_lt_of_le (hlast e2 he2') (W.mono (by omega))⟩
            · have hmv : ((proc m).isInvalidated tf (fs 0)).invalidated = false := by
                by_contra hne
                have hs := hun hmi ⟨m, .refl, (selfStale_iff (hask m hm)).2 (by simpa using hne)⟩
                exact hmb (ended_began hwf hpre hs.1)
              obtain ⟨f, hf⟩ := Option.isSome_iff_exists.1 (hpres _ hm hmv i hmo)
              refine ⟨f, ?_, hclock hf b⟩
              rw [crash_fresh hwf hpre hp W hcr hm hmb (List.mem_append_left _ hmo)]; exact hf
        have := (C34_stale tf crash (proc n) hret (hp.hasInput _ hn) (hp.hasOutput _ hn)
          (fun i hi => by obtain ⟨f, hf, _⟩ := hin i hi; rw [hf]; rfl)
          (fun o ho => by obtain ⟨f, hf, _⟩ := hout o ho; rw [hf]; rfl)).1 hs'
        obtain ⟨o, ho, i, hi, fo, fi, e1, e2, hle⟩ := this
        obtain ⟨f1, h1, h2⟩ := hin i hi
        obtain ⟨f2, h3, h4, -⟩ := hout o ho
        rw [h3] at e1; rw [h1] at e2
        cases e1; cases e2
        omega
      · exact ⟨n, .refl, hst, hsu⟩
    · exfalso
      have hnb : ∀ {m}, Relation.ReflTransGen (HasEdge C.dag .invalidatedBy) n m →
          ¬ JobBegan tr m := by
        intro m h1 h2
        obtain ⟨k, h3, h4⟩ := (hbn h2).2
        exact hst ⟨k, h1.trans h3, h4⟩
      refine hst ⟨n, .refl, (selfStale_iff (hask n hn)).2 ?_⟩
      rw [← hs']
      refine congrArg InvalResult.invalidated (isInvalidated_congr tf fun q hq => ?_)
      symm
      rcases hq with hq | hq
      · rcases hp.inputs _ hn q hq with hs | ⟨m, hm, hmo, hma, hmi⟩
        · exact crash_source hwf hpre W hcr hs
        · exact crash_fresh hwf hpre hp W hcr hm (hnb (.single hmi)) (List.mem_append_left _ hmo)
      · exact crash_fresh hwf hpre hp W hcr hn (hnb .refl) hq
  obtain ⟨m, h1, h2⟩ := hs2
  obtain ⟨k, h3, h4⟩ := hB (reach_node hwf h1 hn) h2
  exact ⟨k, h1.trans h3, h4⟩

/-- **C82**, no work is lost, if tasks are invalidated through files only and those which were being
executed or failed are found out of date: a task that was out of date in the interrupted execution and has
not succeeded there is out of date in the next one. -/
theorem C82_not_lost (hwf : C.dag.WF) (hpre : tr <+: (exec C ms).trace) (tf : TimeFmt) (hp : Plan C.dag proc) (hl : Linked C.dag proc)
    (W : BuildRun C.dag C.outcome proc tr clock fs) (hask : AsksAt C proc tf (fs 0))
    (hcr : CrashFS proc tr (fs tr.length) crash)
    (ask2 : Node → InvalOut) (hask2 : ∀ n ∈ C.dag.nodes, ask2 n = .answer ((proc n).isInvalidated tf crash))
    (hhit : ∀ m, JobBegan tr m → ¬ Succeeded tr C.outcome m →
      Stale C.dag ask2 m)
    {n : Node} (hn : n ∈ C.dag.nodes) (hs : Stale C.dag C.ask n)
    (hns : ¬ Succeeded tr C.outcome n) : Stale C.dag ask2 n := by
  have hclock : ∀ {q f}, fs 0 q = some f → ∀ b, f.time < clock b := fun h b =>
    Int.lt_of_lt_of_le (W.old _ _ h) (W.mono (Nat.zero_le b))
  -- nothing is lost
  have hA : ∀ {n m}, Relation.ReflTransGen (HasEdge C.dag .invalidatedBy) n m → SelfStale C.ask m →
      n ∈ C.dag.nodes → ¬ Succeeded tr C.outcome n → Stale C.dag ask2 n := by
    intro n m hpath hm
    -- an input is an output of a task that succeeded
    have hnew : ∀ {n k q}, n ∈ C.dag.nodes → k ∈ C.dag.nodes → ¬ JobBegan tr n →
        Succeeded tr C.outcome k → q ∈ (proc k).output → q ∈ (proc n).input →
        Stale C.dag ask2 n := by
      intro n k q hn hk hb hs ho hi
      obtain ⟨b, e, -, -, -, hout, -⟩ := crash_made hwf hpre hp W hcr hk hs
      obtain ⟨f, hf, hbf, -⟩ := hout q ho
      refine ⟨n, .refl, (selfStale_iff (hask2 n hn)).2 (inval_of_newer tf (hp.hasOutput n hn) hi ?_)⟩
      intro o ho' f' hf'
      rw [crash_fresh hwf hpre hp W hcr hn hb (List.mem_append_left _ ho')] at hf'
      have h1 := hclock hf' b
      have h2 : writeTime crash q = f.time := by unfold writeTime; rw [hf]
      omega
    induction hpath using Relation.ReflTransGen.head_induction_on with
    | refl =>
      intro hn hns
      by_cases hb : JobBegan tr m
      · exact hhit m hb hns
      by_cases hex : ∃ k, HasEdge C.dag .invalidatedBy m k ∧ JobBegan tr k ∧
          ¬ Succeeded tr C.outcome k
      · obtain ⟨k, h1, h2, h3⟩ := hex
        obtain ⟨x, h4, h5⟩ := hhit k h2 h3
        exact ⟨x, .head h1 h4, h5⟩
      by_cases hex2 : ∃ k ∈ C.dag.nodes, Succeeded tr C.outcome k ∧
          ∃ q ∈ (proc k).output, q ∈ (proc m).input
      · obtain ⟨k, hk, hs, q, ho, hi⟩ := hex2
        exact hnew hn hk hb hs ho hi
      refine ⟨m, .refl, (selfStale_iff (hask2 m hn)).2 ?_⟩
      rw [← (selfStale_iff (hask m hn)).1 hm]
      refine congrArg InvalResult.invalidated (isInvalidated_congr tf fun q hq => ?_)
      rcases hq with hq | hq
      · rcases hp.inputs _ hn q hq with hs | ⟨k, hk, hko, hka, hki⟩
        · exact crash_source hwf hpre W hcr hs
        · refine crash_fresh hwf hpre hp W hcr hk (fun hkb => ?_) (List.mem_append_left _ hko)
          by_cases hks : Succeeded tr C.outcome k
          · exact hex2 ⟨k, hk, hks, q, hko, hq⟩
          · exact hex ⟨k, hki, hkb, hks⟩
      · exact crash_fresh hwf hpre hp W hcr hn hb hq
    | head hnk hkm ih =>
      rename_i n k
      intro hn hns
      have hk := (hwf.closed _ hnk).2
      by_cases hks : Succeeded tr C.outcome k
      · by_cases hb : JobBegan tr n
        · exact hhit n hb hns
        · obtain ⟨q, ho, hi⟩ := hl n k hnk
          exact hnew hn hk hb hks ho hi
      · obtain ⟨x, h1, h2⟩ := ih hk hks
        exact ⟨x, .head hnk h1, h2⟩
  obtain ⟨m, h1, h2⟩ := hs
  exact hA h1 h2 hn hns

/-- **C82**, exactly when the next execution finds out of date what the interrupted one left to do, and
nothing else. -/
theorem C82_exact (hwf : C.dag.WF) (hpre : tr <+: (exec C ms).trace) (tf : TimeFmt) (hp : Plan C.dag proc) (hl : Linked C.dag proc)
    (W : BuildRun C.dag C.outcome proc tr clock fs) (hask : AsksAt C proc tf (fs 0))
    (hpres : ∀ n ∈ C.dag.nodes, ((proc n).isInvalidated tf (fs 0)).invalidated = false →
      ∀ o ∈ (proc n).output, (fs 0 o).isSome)
    (hcr : CrashFS proc tr (fs tr.length) crash)
    (ask2 : Node → InvalOut)
    (hask2 : ∀ n ∈ C.dag.nodes, ask2 n = .answer ((proc n).isInvalidated tf crash)) :
    (∀ n ∈ C.dag.nodes, Stale C.dag ask2 n ↔
      ∃ m, Relation.ReflTransGen (HasEdge C.dag .invalidatedBy) n m ∧
        Stale C.dag C.ask m ∧ ¬ Succeeded tr C.outcome m) ↔
    ∀ m, JobBegan tr m → ¬ Succeeded tr C.outcome m →
      Stale C.dag ask2 m := by
  constructor
  · intro h m hb hns
    obtain ⟨h1, h2⟩ := crash_node hwf hpre hb
    exact (h m h1).2 ⟨m, .refl, h2, hns⟩
  · intro hhit n hn
    refine ⟨C82_not_repeated hwf hpre tf hp W hask hpres hcr ask2 hask2 hn, ?_⟩
    rintro ⟨m, h1, h2, h3⟩
    obtain ⟨x, h4, h5⟩ :=
      C82_not_lost hwf hpre tf hp hl W hask hcr ask2 hask2 hhit (reach_node hwf h1 hn) h2 h3
    exact ⟨x, h1.trans h4, h5⟩

end

/-- **C82** (partial).  The program dies after the events `tr`, leaving the files `crash`; every process
that was being executed or had failed has a retcode file, which is missing or holds a failure.  Then the
next execution of the same dag (any thread count, schedule) executes, of the tasks whose dependencies do not
fail, exactly those the interrupted one had to execute and did not finish successfully, and what is
invalidated by them.

Missing: without that condition on the retcode files tasks can be lost (`C82_counterexample`); likewise for
tasks invalidated by others without a file between them. -/
theorem C82_partial (C C2 : Cfg) (hwf : C.dag.WF) (proc : Node → Process) (tf : TimeFmt)
    (clock : Nat → Int) (fs : Nat → FS) (crash : FS) (ms ms2 : List Move) (tr : List Event)
    (hpre : tr <+: (exec C ms).trace) (hp : Plan C.dag proc) (hl : Linked C.dag proc)
    (W : BuildRun C.dag C.outcome proc tr clock fs) (hask : AsksAt C proc tf (fs 0))
    (hpres : ∀ n ∈ C.dag.nodes, ((proc n).isInvalidated tf (fs 0)).invalidated = false →
      ∀ o ∈ (proc n).output, (fs 0 o).isSome)
    (hcr : CrashFS proc tr (fs tr.length) crash)
    (hrc : ∀ m, JobBegan tr m → ¬ Succeeded tr C.outcome m → ¬ RetcodeOk crash (proc m))
    (hdag : C2.dag = C.dag) (hask2 : AsksAt C2 proc tf crash)
    (r : RunRecord) (hr : r ∈ recsOf (exec C2 ms2).trace) (hst : r.status ≠ .depf) :
    JobBegan (exec C2 ms2).trace r.node ↔
      ∃ m, Relation.ReflTransGen (HasEdge C.dag .invalidatedBy) r.node m ∧
        Stale C.dag C.ask m ∧ ¬ Succeeded tr C.outcome m := by
  have hwf2 : C2.dag.WF := hdag ▸ hwf
  have hask2' : ∀ n ∈ C.dag.nodes, C2.ask n = .answer ((proc n).isInvalidated tf crash) := by
    intro n hn; exact hask2 n (hdag ▸ hn)
  have hn : r.node ∈ C.dag.nodes := by
    obtain ⟨hI, hT⟩ := both_exec hwf2 ms2
    rw [hT.recs] at hr
    rw [← hdag]
    exact hI.inNodes _ (by
      simp only [allNodes, List.mem_append]; exact .inl (.inr (List.mem_map_of_mem hr)))
  rw [C08_executed_iff_stale C2 hwf2 ms2 r hr hst, hdag]
  refine (C82_exact hwf hpre tf hp hl W hask hpres hcr C2.ask hask2').2 (fun m hb hs => ?_) r.node hn
  exact ⟨m, .refl, (selfStale_iff (hask2' m (crash_node hwf hpre hb).1)).2
    (inval_of_retcode tf (hrc m hb hs))⟩

/-! ## what a crash inside `run` leaves in the retcode file -/

/-- **C82**, exactly when the retcode file does not tell the next execution that the process has to run:
before the old file is removed, if that one holds 0; later, if the child succeeded, or the file was opened
and no digit written. -/
theorem C82_points (os : POS) (fs : FS) (p : Process) (f : Str) (hf : p.retcodeFile = some f)
    (hkeep : os.effect fs f = fs f) (pt : CrashPoint) (hmid : ∀ mid, pt = .child mid → mid f = fs f) :
    RetcodeOk (p.crashFS os fs pt) p ↔ match pt with
      | .unstarted | .child _ | .exited => ∃ file, fs f = some file ∧ readInt file.content = 0
      | .removed => False
      | .opened k => os.exit = 0 ∨ k = 0 ∨ (k = 1 ∧ os.exit < 0) := by
  have hR : ∀ g : FS, RetcodeOk g p ↔ ∃ file, g f = some file ∧ readInt file.content = 0 := by
    intro g
    unfold RetcodeOk
    rw [hf]
    exact ⟨fun h => h f rfl, fun h f' e => by cases e; exact h⟩
  rw [hR]
  cases pt with
  | unstarted => rfl
  | child mid => show (∃ file, mid f = _ ∧ _) ↔ _; rw [hmid mid rfl]
  | exited => show (∃ file, os.effect fs f = _ ∧ _) ↔ _; rw [hkeep]
  | removed => simp [Process.crashFS, hf]
  | opened k =>
    show _ ↔ (os.exit = 0 ∨ k = 0 ∨ (k = 1 ∧ os.exit < 0))
    rw [← C82_torn]
    simp [Process.crashFS, hf]

/-- a crash after the last character leaves what `run` leaves -/
theorem C82_completed (os : POS) (fs : FS) (p : Process) (hc : os.Completed)
    (hrm : os.removeFails = none) (hw : os.Stored) (hf : p.retcodeFile.isSome) :
    (p.run os fs).2 = p.crashFS os fs (.opened (showInt os.exit).length) := by
  obtain ⟨f, hf⟩ := Option.isSome_iff_exists.1 hf
  rw [prun_done os fs p hc, hf]
  simp only [writeRetcode, hrm, hw.1, if_true, Process.crashFS, hf, List.take_length,
    List.take_of_length_le hw.2]
  funext q
  by_cases h : q = f
  · subst h; simp
  · simp [h, Ne.symm h]

/-! ## examples -/

theorem BuildRun.take {g : Dag} {outcome : Node → JobOut} {proc : Node → Process} {tr : List Event}
    {clock : Nat → Int} {fs : Nat → FS} (W : BuildRun g outcome proc tr clock fs) (k : Nat) :
    BuildRun g outcome proc (tr.take k) clock fs := by
  refine ⟨W.strict, W.old, W.sources, fun i hi q hq => ?_, fun i n hi => ?_⟩
  · rw [List.length_take] at hi
    rw [List.take_take, Nat.min_eq_left (by omega)]
    exact W.change i (by omega) q hq
  · have hlt : ∀ {j : Nat} {e : Event}, (tr.take k)[j]? = some e → tr[j]? = some e := by
      intro j e h
      rw [List.getElem?_take] at h
      split at h
      · exact h
      · cases h
    obtain ⟨os, before, h1, h2, h3⟩ := W.runs i n (hlt hi)
    refine ⟨os, before, h1, h2, fun hc hx => ?_⟩
    obtain ⟨hw, ho⟩ := h3 hc hx
    refine ⟨hw, fun o hoo => ?_⟩
    obtain ⟨f, hf, hj⟩ := ho o hoo
    exact ⟨f, hf, fun j b h => hj j b (hlt h)⟩

namespace Ex

/-- the build of C60 in which `b` is older than `a`: both tasks have to be executed -/
def ctrace : List Event := (exec (bcfg true bfs1) bmoves).trace

/-- the files along it -/
def cfs : Nat → FS := canonFs bproc bfs1 ctrace

/-- a child of task 2 that writes its output and fails -/
def cos : POS :=
  { start := ⟨0, false, []⟩, chunks := [], drain := ⟨0, false, []⟩, exit := 1, wait := ⟨0, false, []⟩
    effect := fun fs q => if q = ['c'] then some ⟨17, []⟩ else fs q
    removeFails := none, canWrite := true, room := 9, now := 17 }

/-- two tasks without a file between them -/
def cproc (n : Node) : Process :=
  if n = 1 then { cmd := [], input := [['a']], output := [['b']], retcodeFile := none }
  else { cmd := [], input := [['d']], output := [['c']], retcodeFile := some ['r'] }

def cfs1 : FS := fun q => if q = ['d'] then some ⟨-9, []⟩ else bfs1 q

def ccfg : Cfg :=
  { bcfg true bfs1 with
    ask := fun n => .answer ((cproc n).isInvalidated (fun _ => []) cfs1)
    outcome := fun n => .ret { retcode := some 0, output := [], log := (cproc n).shown } }

theorem crunning : Running (ctrace.take 17) 2 ∧ ∀ n, Running (ctrace.take 17) n → n = 2 := by
  have h1 : Event.jobBegin 2 true ∈ ctrace.take 17 := by decide +kernel
  have h2 : ∀ e ∈ ctrace.take 17, (match e with | .jobEnd n => n == 1 | _ => true) = true := by
    decide +kernel
  have h3 : Event.jobEnd 1 ∈ ctrace.take 17 := by decide +kernel
  have h4 : ∀ e ∈ ctrace.take 17, (match e with | .jobBegin n _ => n == 1 || n == 2 | _ => true) = true := by
    decide +kernel
  refine ⟨⟨⟨_, h1⟩, fun h => ?_⟩, ?_⟩
  · simpa using h2 _ h
  · rintro n ⟨⟨b, hb⟩, hne⟩
    have := h4 _ hb
    simp only [Bool.or_eq_true, beq_iff_eq] at this
    rcases this with rfl | h
    · exact absurd h3 hne
    · exact h

theorem cworld : BuildRun (bcfg true bfs1).dag (bcfg true bfs1).outcome bproc (ctrace.take 17)
    (fun i => i) cfs :=
  (bworld true bfs1 bold1 (by decide +kernel) (by decide +kernel)).take 17

theorem clinked (fs : FS) : Linked (bcfg true fs).dag bproc := by
  intro n m h
  have h' : (⟨n, m, .invalidatedBy⟩ : Edge) ∈ (bdag true).edges := h
  simp [bdag] at h'
  obtain ⟨rfl, rfl⟩ := h'
  exact ⟨['b'], by decide, by decide⟩

theorem ccrash (pt : CrashPoint) (h : ∀ mid, pt ≠ .child mid) :
    CrashFS bproc (ctrace.take 17) (cfs 17) ((bproc 2).crashFS cos (cfs 17) pt) := by
  intro q hq
  have hq2 : q ≠ ['c'] ∧ q ≠ ['r'] := by
    have := hq 2 crunning.1
    have : q ∉ [['c'], ['r']] := this
    simpa using this
  have hr : (bproc 2).retcodeFile ≠ some q := by
    show some ['r'] ≠ some q
    intro e; cases e; exact hq2.2 rfl
  cases pt with
  | unstarted => rfl
  | child mid => exact absurd rfl (h mid)
  | exited => show (if q = ['c'] then _ else _) = _; rw [if_neg hq2.1]
  | removed =>
    show (if _ then _ else (if q = ['c'] then _ else _)) = _
    rw [if_neg hr, if_neg hq2.1]
  | opened k =>
    show (if _ then _ else (if q = ['c'] then _ else _)) = _
    rw [if_neg hr, if_neg hq2.1]

theorem cplan : Plan ccfg.dag cproc := by
  refine ⟨?_, ?_, ?_, ?_, ?_⟩
  · show ∀ n ∈ [2, 1], ∀ m ∈ [2, 1], n ≠ m → ∀ q ∈ (cproc n).writes, q ∉ (cproc m).writes
    decide +kernel
  · intro n _ f hf
    unfold cproc at hf ⊢
    split at hf
    · cases hf
    · rename_i h
      cases hf
      rw [if_neg h]
      show ['r'] ∉ [['c']]
      decide
  · show ∀ n ∈ [2, 1], ∀ q ∈ (cproc n).input, (∀ m ∈ [2, 1], q ∉ (cproc m).writes) ∨ _
    intro n hn q hq
    left
    revert q
    revert n
    decide +kernel
  · show ∀ n ∈ [2, 1], (cproc n).input ≠ []
    decide +kernel
  · show ∀ n ∈ [2, 1], (cproc n).output ≠ []
    decide +kernel

theorem cworld2 : BuildRun ccfg.dag ccfg.outcome cproc ((exec ccfg bmoves).trace.take 12) (fun i => i)
    (canonFs cproc cfs1 (exec ccfg bmoves).trace) := by
  have hok : canonOk (exec ccfg bmoves).trace = true := by decide +kernel
  refine (canon_world (fun _ => rfl) ?_ ?_ ?_ (fun i n h => (canonOk_spec hok h).1)
    (fun i n h => (canonOk_spec hok h).2)).take 12
  · intro n f hf
    unfold cproc at hf ⊢
    split at hf
    · cases hf
    · rename_i h
      cases hf
      rw [if_neg h]
      show ['r'] ∉ [['c']]
      decide
  · intro q f h
    unfold cfs1 at h
    split at h
    · cases h; decide
    · exact bold1 q f h
  · show ∀ n ∈ [2, 1], ∀ q ∈ (cproc n).input, _ → _
    intro n hn q hq _
    revert q
    revert n
    decide +kernel

end Ex

/-- **C82** is false.  First: the program is killed while the child of task 2, which fails, is about to
exit; the retcode file still holds the 0 of an earlier execution.  Second: it is killed when the retcode
file is open and empty.  In both cases the next execution finds everything up to date.  Third: task 2 is
invalidated by task 1, but reads no file of it; the program is killed between the two, and the next
execution finds everything up to date. -/
theorem C82_counterexample :
    (∀ pt, pt = .exited ∨ pt = .opened 0 →
      let crash := (Ex.bproc 2).crashFS Ex.cos (Ex.cfs 17) pt
      CrashFS Ex.bproc (Ex.ctrace.take 17) (Ex.cfs 17) crash ∧
      Running (Ex.ctrace.take 17) 2 ∧ Stale (Ex.bcfg true Ex.bfs1).dag (Ex.bcfg true Ex.bfs1).ask 2 ∧
      Ex.cos.exit ≠ 0 ∧
      ∀ n ∈ (Ex.bcfg true Ex.bfs1).dag.nodes,
        ((Ex.bproc n).isInvalidated (fun _ => []) crash).invalidated = false) ∧
    (Plan Ex.ccfg.dag Ex.cproc ∧
      BuildRun Ex.ccfg.dag Ex.ccfg.outcome Ex.cproc ((exec Ex.ccfg Ex.bmoves).trace.take 12) (fun i => i)
        (canonFs Ex.cproc Ex.cfs1 (exec Ex.ccfg Ex.bmoves).trace) ∧
      AsksAt Ex.ccfg Ex.cproc (fun _ => []) Ex.cfs1 ∧
      Stale Ex.ccfg.dag Ex.ccfg.ask 2 ∧ ¬ JobBegan ((exec Ex.ccfg Ex.bmoves).trace.take 12) 2 ∧
      (∀ n, ¬ Running ((exec Ex.ccfg Ex.bmoves).trace.take 12) n) ∧
      ∀ n ∈ Ex.ccfg.dag.nodes, ((Ex.cproc n).isInvalidated (fun _ => [])
        (canonFs Ex.cproc Ex.cfs1 (exec Ex.ccfg Ex.bmoves).trace 12)).invalidated = false) := by
  refine ⟨fun pt hpt => ?_, Ex.cplan, Ex.cworld2, fun _ _ => rfl, ?_, ?_, ?_, ?_⟩
  · refine ⟨Ex.ccrash pt (by rintro mid rfl; simp at hpt), Ex.crunning.1,
      ⟨1, .single (by show _ ∈ (Ex.bdag true).edges; decide), ?_⟩, by decide, ?_⟩
    · exact (selfStale_iff (proc := Ex.bproc) (tf := fun _ => []) (f := Ex.bfs1) rfl).2 (by decide +kernel)
    · show ∀ n ∈ [2, 1], _
      rcases hpt with rfl | rfl <;> decide +kernel
  · exact ⟨1, .single (by show _ ∈ (Ex.bdag true).edges; decide),
      (selfStale_iff (proc := Ex.cproc) (tf := fun _ => []) (f := Ex.cfs1) rfl).2 (by decide +kernel)⟩
  · rintro ⟨b, hb⟩
    have : ∀ e ∈ (exec Ex.ccfg Ex.bmoves).trace.take 12,
        (match e with | .jobBegin n _ => n != 2 | _ => true) = true := by decide +kernel
    simpa using this _ hb
  · rintro n ⟨⟨b, hb⟩, he⟩
    have h1 : ∀ e ∈ (exec Ex.ccfg Ex.bmoves).trace.take 12,
        (match e with | .jobBegin n _ => n == 1 | _ => true) = true := by decide +kernel
    have h2 : Event.jobEnd 1 ∈ (exec Ex.ccfg Ex.bmoves).trace.take 12 := by decide +kernel
    have := h1 _ hb
    simp only [beq_iff_eq] at this
    exact he (this ▸ h2)
  · show ∀ n ∈ [2, 1], _
    decide +kernel

/-- the hypotheses of `C82_partial` hold if the program is killed one moment later than in the first case,
or has written a digit of the return code: task 2 is executed again -/
example : (∀ pt, pt = .removed ∨ pt = .opened 1 →
      let crash := (Ex.bproc 2).crashFS Ex.cos (Ex.cfs 17) pt
      CrashFS Ex.bproc (Ex.ctrace.take 17) (Ex.cfs 17) crash ∧
      (∀ m, JobBegan (Ex.ctrace.take 17) m →
        ¬ Succeeded (Ex.ctrace.take 17) (Ex.bcfg true Ex.bfs1).outcome m →
        ¬ RetcodeOk crash (Ex.bproc m))) ∧
    Ex.ctrace.take 17 <+: (exec (Ex.bcfg true Ex.bfs1) Ex.bmoves).trace ∧
    Plan (Ex.bcfg true Ex.bfs1).dag Ex.bproc ∧ Linked (Ex.bcfg true Ex.bfs1).dag Ex.bproc ∧
    BuildRun (Ex.bcfg true Ex.bfs1).dag (Ex.bcfg true Ex.bfs1).outcome Ex.bproc (Ex.ctrace.take 17)
      (fun i => i) Ex.cfs ∧
    AsksAt (Ex.bcfg true Ex.bfs1) Ex.bproc (fun _ => []) (Ex.cfs 0) ∧
    (∀ n ∈ (Ex.bcfg true Ex.bfs1).dag.nodes,
      ((Ex.bproc n).isInvalidated (fun _ => []) (Ex.cfs 0)).invalidated = false →
      ∀ o ∈ (Ex.bproc n).output, (Ex.cfs 0 o).isSome) := by
  refine ⟨fun pt hpt => ⟨Ex.ccrash pt (by rintro mid rfl; simp at hpt), fun m hb hs => ?_⟩,
    List.take_prefix _ _, Ex.bplan _, Ex.clinked _, Ex.cworld, fun _ _ => rfl, ?_⟩
  · have hm : m = 2 := by
      by_cases he : JobEnded (Ex.ctrace.take 17) m
      · exact absurd ⟨he, _, rfl, rfl⟩ hs
      · exact Ex.crunning.2 m ⟨hb, he⟩
    subst hm
    rw [C82_points Ex.cos (Ex.cfs 17) (Ex.bproc 2) ['r'] rfl rfl pt (by rintro mid rfl; simp at hpt)]
    rcases hpt with rfl | rfl
    · simp
    · show ¬ (_ ∨ _ ∨ _)
      decide
  · show ∀ n ∈ [2, 1], _
    decide +kernel

end Joque
