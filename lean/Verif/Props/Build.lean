import Verif.Spec.BuildRun
import Verif.Proof.Process
import Verif.Props.RefInv
import Verif.Props.Process

/-!
# C60, C61: builds

The engine together with subprocess jobs and the file system.
-/

namespace Joque

/-! ## what the answer depends on -/

theorem minOf_congr {f g : Str → Int} (l : List Str) (m : Str) (hm : f m = g m)
    (h : ∀ x ∈ l, f x = g x) : minOf f m l = minOf g m l := by
  induction l generalizing m with
  | nil => rfl
  | cons x l ih =>
    have hx := h x (List.mem_cons_self ..)
    have hl : ∀ y ∈ l, f y = g y := fun y hy => h y (List.mem_cons_of_mem _ hy)
    unfold minOf
    rw [hm, hx, ih x hx hl, ih m hm hl]

theorem maxOf_congr {f g : Str → Int} (l : List Str) (m : Str) (hm : f m = g m)
    (h : ∀ x ∈ l, f x = g x) : maxOf f m l = maxOf g m l := by
  induction l generalizing m with
  | nil => rfl
  | cons x l ih =>
    have hx := h x (List.mem_cons_self ..)
    have hl : ∀ y ∈ l, f y = g y := fun y hy => h y (List.mem_cons_of_mem _ hy)
    unfold maxOf
    rw [hm, hx, ih x hx hl, ih m hm hl]

/-- `is_invalidated` looks at nothing but the files of the process. -/
theorem isInvalidated_congr (tf : TimeFmt) {fs fs' : FS} {p : Process}
    (h : ∀ q, q ∈ p.input ∨ q ∈ p.writes → fs q = fs' q) :
    p.isInvalidated tf fs = p.isInvalidated tf fs' := by
  have hr : retcodeCheck fs p = retcodeCheck fs' p := by
    unfold retcodeCheck
    cases hf : p.retcodeFile with
    | none => rfl
    | some f =>
      have : fs f = fs' f := h f (.inr (by simp [Process.writes, hf]))
      dsimp only
      rw [this]
  have ho : ∀ q ∈ p.output, fs q = fs' q := fun q hq =>
    h q (.inr (List.mem_append_left _ hq))
  have hi : ∀ q ∈ p.input, fs q = fs' q := fun q hq => h q (.inl hq)
  unfold Process.isInvalidated
  rw [hr]
  cases retcodeCheck fs' p with
  | some r => rfl
  | none =>
    dsimp only
    cases hout : p.output with
    | nil => rfl
    | cons o os =>
      rw [hout] at ho
      cases hin : p.input with
      | nil =>
        dsimp only
        have : (o :: os).all (fun q => (fs q).isSome) = (o :: os).all (fun q => (fs' q).isSome) := by
          rw [Bool.eq_iff_iff, List.all_eq_true, List.all_eq_true]
          exact forall_congr' fun q => forall_congr' fun hq => by rw [ho q hq]
        rw [this]
      | cons i is =>
        rw [hin] at hi
        have wo : ∀ q ∈ o :: os, writeTime fs q = writeTime fs' q := fun q hq => by
          unfold writeTime; rw [ho q hq]
        have wi : ∀ q ∈ i :: is, writeTime fs q = writeTime fs' q := fun q hq => by
          unfold writeTime; rw [hi q hq]
        have e1 := minOf_congr os o (wo o (List.mem_cons_self ..))
          fun x hx => wo x (List.mem_cons_of_mem _ hx)
        have e2 := maxOf_congr is i (wi i (List.mem_cons_self ..))
          fun x hx => wi x (List.mem_cons_of_mem _ hx)
        dsimp only
        rw [e1, e2]
        have m1 := (minOf_spec (writeTime fs') o os).1
        have m2 := (maxOf_spec (writeTime fs') i is).1
        rw [ho _ m1, wo _ m1, wi _ m2]

/-! ## files along an execution -/

section
variable {g : Dag} {outcome : Node → JobOut} {proc : Node → Process} {tr : List Event}
  {clock : Nat → Int} {fs : Nat → FS}

/-- a file no executing process writes stays -/
theorem BuildRun.stable (W : BuildRun g outcome proc tr clock fs) {q : Str} {i j : Nat} (hij : i ≤ j)
    (hj : j ≤ tr.length)
    (h : ∀ k, i ≤ k → k < j → ∀ n, Running (tr.take k) n → q ∉ (proc n).writes) :
    fs j q = fs i q := by
  induction j with
  | zero => rw [Nat.le_zero.1 hij]
  | succ j ih =>
    rcases Nat.lt_or_ge i (j + 1) with hlt | hge
    · rw [← ih (by omega) (by omega) fun k h1 h2 => h k h1 (by omega)]
      by_contra hne
      obtain ⟨⟨n, h1, h2⟩, _⟩ := W.change j (by omega) q hne
      exact h j (by omega) (by omega) n h1 h2
    · rw [Nat.le_antisymm hij hge]

theorem BuildRun.mono (W : BuildRun g outcome proc tr clock fs) {i j : Nat} (h : i ≤ j) :
    clock i ≤ clock j := by
  rcases Nat.lt_or_ge i j with h1 | h1
  · exact Int.le_of_lt (W.strict i j h1)
  · rw [Nat.le_antisymm h h1]; exact Int.le_refl _

/-- no file is from the future -/
theorem BuildRun.past (W : BuildRun g outcome proc tr clock fs) {q : Str} {f : PFile} {j : Nat}
    (hj : j ≤ tr.length) (h : fs j q = some f) : f.time < clock j := by
  induction j with
  | zero => exact W.old q f h
  | succ j ih =>
    by_cases hc : fs (j + 1) q = fs j q
    · exact Int.lt_trans (ih (by omega) (hc ▸ h)) (W.strict _ _ (Nat.lt_succ_self j))
    · rw [(W.change j (by omega) q hc).2 f h]
      exact W.strict _ _ (Nat.lt_succ_self j)

end

/-- A process that succeeded: the child ran to its end and the outcome says so. -/
theorem run_ok {os : POS} {fs : FS} {p : Process} {r : RunResult} (h : (p.run os fs).1 = .ret r)
    (h0 : r.retcode = some 0) : os.Completed ∧ os.exit = 0 := by
  rcases os.cases with c | ⟨c, c2⟩ | ⟨c, c2, c3⟩ | c
  · rw [prun_start os fs p c] at h
    cases h; simp only [Option.some.injEq] at h0; exact absurd h0 c
  · rw [prun_drain os fs p c c2] at h
    cases h; simp only [Option.some.injEq] at h0; exact absurd h0 c2
  · rw [prun_wait os fs p c c2 c3] at h
    cases h; simp only [Option.some.injEq] at h0; exact absurd h0 c3
  · refine ⟨c, ?_⟩
    rw [prun_done os fs p c] at h
    cases hw : writeRetcode os (os.effect fs) p.retcodeFile with
    | error w => rw [hw] at h; cases h
    | ok fs' => rw [hw] at h; cases h; simpa using h0

theorem run_ok_writes {os : POS} {fs : FS} {p : Process} {r : RunResult}
    (h : (p.run os fs).1 = .ret r) (h0 : r.retcode = some 0) (hw : os.canWrite = true) :
    (∀ q, p.retcodeFile ≠ some q → (p.run os fs).2 q = os.effect fs q) ∧
    ∀ q, p.retcodeFile = some q → ∃ f, (p.run os fs).2 q = some f ∧ readInt f.content = 0 := by
  obtain ⟨hc, hx⟩ := run_ok h h0
  rw [prun_done os fs p hc] at h ⊢
  cases hf : p.retcodeFile with
  | none =>
    simp only [writeRetcode]
    simp
  | some f =>
    cases hr : os.removeFails with
    | some w => simp [writeRetcode, hf, hr] at h
    | none =>
      simp only [writeRetcode, hr, hw, if_true]
      refine ⟨fun q hq => if_neg fun he => hq (by rw [he]), fun q hq => ?_⟩
      cases hq
      refine ⟨_, if_pos rfl, ?_⟩
      exact (C82_torn _ _).2 (.inl hx)

theorem mem_take_of_getElem? {tr : List Event} {e : Event} {i k : Nat} (h : tr[i]? = some e)
    (hk : i < k) : e ∈ tr.take k := by
  rw [List.mem_iff_getElem?]
  exact ⟨i, by rw [List.getElem?_take_of_lt hk]; exact h⟩

section
variable {C : Cfg} {proc : Node → Process} {clock : Nat → Int} {fs : Nat → FS} {ms : List Move}

theorem running_node (hwf : C.dag.WF) {k : Nat} {n : Node}
    (h : Running ((exec C ms).trace.take k) n) : n ∈ C.dag.nodes := by
  obtain ⟨⟨b, hb⟩, _⟩ := h
  obtain ⟨pre, post, htr⟩ := List.append_of_mem (List.mem_of_mem_take hb)
  exact (C02_at_most_once C hwf ms pre post n b htr).1

/-- a file only `m` writes stays while `m` does not execute -/
theorem BuildRun.idle (hwf : C.dag.WF) (hp : Plan C.dag proc)
    (W : BuildRun C.dag C.outcome proc (exec C ms).trace clock fs) {m : Node} (hm : m ∈ C.dag.nodes)
    {q : Str} (hq : q ∈ (proc m).writes) {i j : Nat} (hij : i ≤ j)
    (hj : j ≤ (exec C ms).trace.length)
    (h : ∀ k, i ≤ k → k < j → ¬ Running ((exec C ms).trace.take k) m) : fs j q = fs i q := by
  refine W.stable hij hj fun k h1 h2 n hn hqn => ?_
  by_cases hnm : n = m
  · rw [hnm] at hn; exact h k h1 h2 hn
  · exact hp.disjoint n (running_node hwf hn) m hm hnm q hqn hq

/-- sources stay -/
theorem BuildRun.source (hwf : C.dag.WF)
    (W : BuildRun C.dag C.outcome proc (exec C ms).trace clock fs) {q : Str}
    (hq : ∀ m ∈ C.dag.nodes, q ∉ (proc m).writes) {j : Nat} (hj : j ≤ (exec C ms).trace.length) :
    fs j q = fs 0 q :=
  W.stable (Nat.zero_le _) hj fun _ _ _ n hn => hq n (running_node hwf hn)

/-- files of a task whose job never began -/
theorem BuildRun.untouched (hwf : C.dag.WF) (hp : Plan C.dag proc)
    (W : BuildRun C.dag C.outcome proc (exec C ms).trace clock fs) {m : Node} (hm : m ∈ C.dag.nodes)
    (hb : ¬ JobBegan (exec C ms).trace m) {q : Str} (hq : q ∈ (proc m).writes) :
    fs (exec C ms).trace.length q = fs 0 q := by
  refine W.idle hwf hp hm hq (Nat.zero_le _) (Nat.le_refl _) fun k _ _ hr => hb ?_
  obtain ⟨⟨b, h⟩, _⟩ := hr
  exact ⟨b, List.mem_of_mem_take h⟩

/-- what a task that succeeded leaves -/
theorem BuildRun.made (hwf : C.dag.WF) (hp : Plan C.dag proc)
    (W : BuildRun C.dag C.outcome proc (exec C ms).trace clock fs) {r : RunRecord}
    (hr : r ∈ recsOf (exec C ms).trace) (hst : r.status = .ok) (hm : r.node ∈ C.dag.nodes) {e : Nat}
    (he : (exec C ms).trace[e]? = some (.jobEnd r.node)) :
    (∀ q ∈ (proc r.node).writes, fs (exec C ms).trace.length q = fs (e + 1) q) ∧
    (∀ o ∈ (proc r.node).output, ∃ f, fs (e + 1) o = some f ∧
      ∀ j b, (exec C ms).trace[j]? = some (.jobBegin r.node b) → clock j < f.time) ∧
    ∀ q, (proc r.node).retcodeFile = some q → ∃ f, fs (e + 1) q = some f ∧
      readInt f.content = 0 := by
  have hel : e < (exec C ms).trace.length := (List.getElem?_eq_some_iff.1 he).1
  have h6 := C06_status_meaning C hwf ms r hr
  rw [hst] at h6
  obtain ⟨_, _, rr, hrr, h0, _⟩ := h6
  obtain ⟨os, before, h1, h2, h3⟩ := W.runs e r.node he
  rw [h1] at hrr
  obtain ⟨hc, hx⟩ := run_ok hrr h0
  obtain ⟨hw, hout⟩ := h3 hc hx
  obtain ⟨w1, w2⟩ := run_ok_writes hrr h0 hw
  refine ⟨fun q hq => ?_, fun o ho => ?_, fun q hq => ?_⟩
  · refine W.idle hwf hp hm hq (by omega) (Nat.le_refl _) fun k hk _ hrun => hrun.2 ?_
    exact mem_take_of_getElem? he (by omega)
  · obtain ⟨f, hf, hj⟩ := hout o ho
    refine ⟨f, ?_, hj⟩
    rw [h2 o (List.mem_append_left _ ho), w1 o fun hc => hp.retcode _ hm o hc ho, hf]
  · rw [h2 q (by simp [Process.writes, hq])]
    exact w2 q hq

end

/-! ## the second execution has nothing to do -/

/-- **C60**, the file system after an execution in which nothing failed: every process is up to
date.  (Hypothesis `hpres`: a process that says it is up to date has all its outputs; see C35 for
when that is so.) -/
theorem C60_up_to_date (C : Cfg) (hwf : C.dag.WF) (proc : Node → Process) (tf : TimeFmt)
    (clock : Nat → Int) (fs : Nat → FS) (ms : List Move) (hp : Plan C.dag proc)
    (W : BuildRun C.dag C.outcome proc (exec C ms).trace clock fs) (hask : AsksAt C proc tf (fs 0))
    (hpres : ∀ n ∈ C.dag.nodes, ((proc n).isInvalidated tf (fs 0)).invalidated = false →
      ∀ o ∈ (proc n).output, (fs 0 o).isSome)
    (hfin : (exec C ms).phase = .finished)
    (hgood : ∀ r ∈ recsOf (exec C ms).trace, r.status = .ok ∨ r.status = .skip) :
    ∀ n ∈ C.dag.nodes,
      ((proc n).isInvalidated tf (fs (exec C ms).trace.length)).invalidated = false := by
  obtain ⟨hI, hT⟩ := both_exec hwf ms
  obtain ⟨hperm, _, _⟩ := C02_one_record C hwf ms hfin
  have hrec : ∀ n ∈ C.dag.nodes, ∃ r ∈ recsOf (exec C ms).trace, r.node = n := by
    intro n hn
    rw [hT.recs]
    exact List.mem_map.1 (hperm.mem_iff.2 hn)
  -- skipped tasks
  have hskip : ∀ r ∈ recsOf (exec C ms).trace, r.status = .skip → r.node ∈ C.dag.nodes →
      ¬ JobBegan (exec C ms).trace r.node ∧
      ((proc r.node).isInvalidated tf (fs 0)).invalidated = false := by
    intro r hr hst hn
    have h6 := C06_status_meaning C hwf ms r hr
    rw [hst] at h6
    refine ⟨h6.1, ?_⟩
    by_contra hne
    refine h6.2.2.2.1 ⟨r.node, .refl, ((proc r.node).isInvalidated tf (fs 0)).log, ?_⟩
    rw [hask _ hn]
    have : ((proc r.node).isInvalidated tf (fs 0)).invalidated = true := by simpa using hne
    rw [← this]
  intro n hn
  obtain ⟨r, hr, rfl⟩ := hrec n hn
  rcases hgood r hr with hst | hst
  · -- it ran
    have hbe := began_of_status hT (by rw [← hT.recs]; exact hr)
    have hb : JobBegan (exec C ms).trace r.node := hbe.1.2 (.inl hst)
    obtain ⟨e, he⟩ := List.mem_iff_getElem?.1 (hbe.2 hb)
    obtain ⟨b, hb⟩ := hb
    obtain ⟨pre, post, htr⟩ := List.append_of_mem hb
    have hbi : (exec C ms).trace[pre.length]? = some (.jobBegin r.node b) := by
      rw [htr]; simp
    have hple : pre.length ≤ (exec C ms).trace.length := by
      rw [htr, List.length_append]; exact Nat.le_add_right _ _
    obtain ⟨m1, m2, m3⟩ := W.made hwf hp hr hst hn he
    have hret : RetcodeOk (fs (exec C ms).trace.length) (proc r.node) := by
      intro f hf
      obtain ⟨file, h1, h2⟩ := m3 f hf
      exact ⟨file, by rw [m1 f (by simp [Process.writes, hf])]; exact h1, h2⟩
    -- inputs are there and older than the beginning
    have hin : ∀ i ∈ (proc r.node).input, ∃ f, fs (exec C ms).trace.length i = some f ∧
        f.time < clock pre.length := by
      intro i hi
      rcases hp.inputs _ hn i hi with hs | ⟨m, hm, hmo, hma, hmi⟩
      · obtain ⟨f, hf⟩ := Option.isSome_iff_exists.1 (W.sources _ hn i hi hs)
        refine ⟨f, by rw [W.source hwf hs (Nat.le_refl _)]; exact hf, ?_⟩
        exact Int.lt_of_lt_of_le (W.old i f hf) (W.mono (Nat.zero_le _))
      · obtain ⟨r2, hr2, rfl⟩ := hrec m hm
        have hmw : i ∈ (proc r2.node).writes := List.mem_append_left _ hmo
        rcases hgood r2 hr2 with hst2 | hst2
        · have hbe2 := began_of_status hT (by rw [← hT.recs]; exact hr2)
          have hb2 : JobBegan (exec C ms).trace r2.node := hbe2.1.2 (.inl hst2)
          obtain ⟨c1, c2, c3⟩ := C01_ordering C hwf ms pre post _ _ b htr hma
          have hb2' : JobBegan pre r2.node := by
            obtain ⟨b2, h2⟩ := hb2
            rw [htr] at h2
            rcases List.mem_append.1 h2 with h2 | h2
            · exact ⟨b2, h2⟩
            · rcases List.mem_cons.1 h2 with h2 | h2
              · -- a task ordered after itself never begins
                exfalso
                have hrec' := (rec_split hT htr c1).1
                simp only [Event.jobBegin.injEq] at h2
                have : Tag.begin b ∈ life r2.node (Event.jobBegin r.node b :: post) := by
                  rw [h2.1]
                  simp [life, tagOf]
                rw [hrec'] at this; cases this
              · exact absurd ⟨b2, h2⟩ c3
          have he2 : JobEnded pre r2.node := by
            by_contra hne; exact c2 ⟨hb2', hne⟩
          obtain ⟨e2, he2⟩ := List.mem_iff_getElem?.1 he2
          have hlt : e2 < pre.length := (List.getElem?_eq_some_iff.1 he2).1
          have he2' : (exec C ms).trace[e2]? = some (.jobEnd r2.node) := by
            rw [htr, List.getElem?_append_left hlt]; exact he2
          obtain ⟨k1, k2, k3⟩ := W.made hwf hp hr2 hst2 hm he2'
          obtain ⟨f, hf, _⟩ := k2 i hmo
          refine ⟨f, by rw [k1 i hmw]; exact hf, ?_⟩
          exact Int.lt_of_lt_of_le (W.past (by omega) hf) (W.mono (by omega))
        · obtain ⟨s1, s2⟩ := hskip r2 hr2 hst2 hm
          obtain ⟨f, hf⟩ := Option.isSome_iff_exists.1 (hpres _ hm s2 i hmo)
          refine ⟨f, by rw [W.untouched hwf hp hm s1 hmw]; exact hf, ?_⟩
          exact Int.lt_of_lt_of_le (W.old i f hf) (W.mono (Nat.zero_le _))
    have hout : ∀ o ∈ (proc r.node).output, ∃ f, fs (exec C ms).trace.length o = some f ∧
        clock pre.length < f.time := by
      intro o ho
      obtain ⟨f, hf, hj⟩ := m2 o ho
      exact ⟨f, by rw [m1 o (List.mem_append_left _ ho)]; exact hf, hj _ _ hbi⟩
    have := (C34_stale tf (fs (exec C ms).trace.length) (proc r.node) hret (hp.hasInput _ hn)
      (hp.hasOutput _ hn)
      (fun i hi => by obtain ⟨f, hf, _⟩ := hin i hi; rw [hf]; rfl)
      (fun o ho => by obtain ⟨f, hf, _⟩ := hout o ho; rw [hf]; rfl)).not
    rw [Bool.not_eq_true] at this
    rw [this]
    rintro ⟨o, ho, i, hi, fo, fi, e1, e2, hle⟩
    obtain ⟨f1, h1, h2⟩ := hin i hi
    obtain ⟨f2, h3, h4⟩ := hout o ho
    rw [h3] at e1; rw [h1] at e2
    cases e1; cases e2
    omega
  · -- it was skipped: none of its files changed
    obtain ⟨s1, s2⟩ := hskip r hr hst hn
    rw [← s2]
    refine congrArg InvalResult.invalidated (isInvalidated_congr tf fun q hq => ?_)
    rcases hq with hq | hq
    · rcases hp.inputs _ hn q hq with hs | ⟨m, hm, hmo, hma, hmi⟩
      · exact W.source hwf hs (Nat.le_refl _)
      · exact W.untouched hwf hp hm (C08_not_skipped C hwf ms r hr hst m (.single hmi))
          (List.mem_append_left _ hmo)
    · exact W.untouched hwf hp hn s1 hq

/-- **C60**, when no process is out of date, an execution starts no job: every record is SKIP. -/
theorem C60_nothing_to_do (C : Cfg) (hwf : C.dag.WF) (proc : Node → Process) (tf : TimeFmt) (fs : FS)
    (hask : AsksAt C proc tf fs)
    (hup : ∀ n ∈ C.dag.nodes, ((proc n).isInvalidated tf fs).invalidated = false) (ms : List Move) :
    (∀ n, ¬ JobBegan (exec C ms).trace n) ∧
    ∀ r ∈ recsOf (exec C ms).trace, r.status = .skip := by
  obtain ⟨hI, hT⟩ := both_exec hwf ms
  have hclosed : ∀ n m, n ∈ C.dag.nodes → Relation.ReflTransGen (HasEdge C.dag .invalidatedBy) n m →
      m ∈ C.dag.nodes := by
    intro n m hn h
    induction h with
    | refl => exact hn
    | tail _ h _ => exact (hwf.closed _ h).2
  have hns : ∀ n ∈ C.dag.nodes, ¬ Stale C.dag C.ask n := by
    rintro n hn ⟨m, hnm, log, hlog⟩
    have hm := hclosed n m hn hnm
    have h1 := hask m hm
    rw [hlog] at h1
    have h2 := hup m hm
    simp only [InvalOut.answer.injEq] at h1
    rw [← h1] at h2; cases h2
  have hnb : ∀ n, ¬ JobBegan (exec C ms).trace n := by
    rintro n ⟨b, hb⟩
    obtain ⟨pre, post, htr⟩ := List.append_of_mem hb
    exact hns n (C02_at_most_once C hwf ms pre post n b htr).1
      (hT.always pre _ post htr).2.2.2.2.2.1
  have hnf : ∀ r ∈ recsOf (exec C ms).trace, r.status ≠ .ok ∧ r.status ≠ .fail := by
    intro r hr
    have := (began_of_status hT (by rw [← hT.recs]; exact hr)).1
    exact ⟨fun h => hnb _ (this.2 (.inl h)), fun h => hnb _ (this.2 (.inr h))⟩
  refine ⟨hnb, fun r hr => ?_⟩
  cases hst : r.status with
  | ok => exact absurd hst (hnf r hr).1
  | fail => exact absurd hst (hnf r hr).2
  | skip => rfl
  | depf =>
    obtain ⟨rB, h1, _, h2⟩ := C05_root C hwf ms r hr hst
    exact absurd h2 (hnf rB h1).2

/-- **C60**.  After an execution in which nothing failed, executing the same dag again runs nothing,
whatever the number of threads and the schedules: every task is skipped. -/
theorem C60_null_build (C C2 : Cfg) (hwf : C.dag.WF) (proc : Node → Process) (tf : TimeFmt)
    (clock : Nat → Int) (fs : Nat → FS) (ms ms2 : List Move) (hp : Plan C.dag proc)
    (W : BuildRun C.dag C.outcome proc (exec C ms).trace clock fs) (hask : AsksAt C proc tf (fs 0))
    (hpres : ∀ n ∈ C.dag.nodes, ((proc n).isInvalidated tf (fs 0)).invalidated = false →
      ∀ o ∈ (proc n).output, (fs 0 o).isSome)
    (hfin : (exec C ms).phase = .finished)
    (hgood : ∀ r ∈ recsOf (exec C ms).trace, r.status = .ok ∨ r.status = .skip)
    (hdag : C2.dag = C.dag) (hask2 : AsksAt C2 proc tf (fs (exec C ms).trace.length)) :
    (∀ n, ¬ JobBegan (exec C2 ms2).trace n) ∧
    ∀ r ∈ recsOf (exec C2 ms2).trace, r.status = .skip :=
  C60_nothing_to_do C2 (hdag ▸ hwf) proc tf _ hask2
    (by rw [hdag]; exact C60_up_to_date C hwf proc tf clock fs ms hp W hask hpres hfin hgood) ms2

/-! ## a file system for which the hypotheses hold -/

/-- Every job succeeds, and writes its files at the moment it ends. -/
def canonFs (proc : Node → Process) (fs0 : FS) (tr : List Event) : Nat → FS
  | 0 => fs0
  | i + 1 => match tr[i]? with
    | some (.jobEnd n) => fun q =>
      if q ∈ (proc n).output then some ⟨i, []⟩
      else if (proc n).retcodeFile = some q then some ⟨i, showInt 0⟩
      else canonFs proc fs0 tr i q
    | _ => canonFs proc fs0 tr i

theorem canonFs_end {proc : Node → Process} {fs0 : FS} {tr : List Event} {i : Nat} {n : Node}
    (h : tr[i]? = some (.jobEnd n)) (q : Str) : canonFs proc fs0 tr (i + 1) q =
      if q ∈ (proc n).output then some ⟨i, []⟩
      else if (proc n).retcodeFile = some q then some ⟨i, showInt 0⟩
      else canonFs proc fs0 tr i q := by
  rw [canonFs]
  simp only [h]

theorem canonFs_other {proc : Node → Process} {fs0 : FS} {tr : List Event} {i : Nat}
    (h : ∀ n, tr[i]? ≠ some (.jobEnd n)) : canonFs proc fs0 tr (i + 1) = canonFs proc fs0 tr i := by
  rw [canonFs]
  split
  · rename_i n he; exact absurd he (h n)
  · rfl

def canonOS (p : Process) (i : Nat) : POS :=
  { start := ⟨0, false, []⟩, chunks := [], drain := ⟨0, false, []⟩, exit := 0, wait := ⟨0, false, []⟩
    effect := fun fs q => if q ∈ p.output then some ⟨i, []⟩ else fs q
    removeFails := none, canWrite := true, room := 9, now := i }

theorem canon_world {g : Dag} {outcome : Node → JobOut} {proc : Node → Process} {tr : List Event}
    {fs0 : FS} (hout : ∀ n, outcome n = .ret { retcode := some 0, output := [], log := (proc n).shown })
    (hret : ∀ n f, (proc n).retcodeFile = some f → f ∉ (proc n).output)
    (old : ∀ q f, fs0 q = some f → f.time < 0)
    (sources : ∀ n ∈ g.nodes, ∀ q ∈ (proc n).input, (∀ m ∈ g.nodes, q ∉ (proc m).writes) →
      (fs0 q).isSome)
    (hrun : ∀ i n, tr[i]? = some (Event.jobEnd n) → Running (tr.take i) n)
    (hord : ∀ (i : Nat) (n : Node), tr[i]? = some (Event.jobEnd n) →
      ∀ (j : Nat) (b : Bool), tr[j]? = some (Event.jobBegin n b) → j < i) :
    BuildRun g outcome proc tr (fun i => i) (canonFs proc fs0 tr) := by
  refine ⟨fun i j h => by omega, old, sources, fun i hi q hq => ?_, fun i n hi => ?_⟩
  · by_cases hx : ∃ n, tr[i]? = some (.jobEnd n)
    · obtain ⟨n, he⟩ := hx
      rw [canonFs_end he] at hq ⊢
      by_cases h1 : q ∈ (proc n).output
      · refine ⟨⟨n, hrun i n he, List.mem_append_left _ h1⟩, ?_⟩
        rw [if_pos h1]; intro f hf; cases hf; rfl
      · by_cases h2 : (proc n).retcodeFile = some q
        · refine ⟨⟨n, hrun i n he, by simp [Process.writes, h2]⟩, ?_⟩
          rw [if_neg h1, if_pos h2]; intro f hf; cases hf; rfl
        · rw [if_neg h1, if_neg h2] at hq
          exact absurd rfl hq
    · exact absurd (by rw [canonFs_other fun n h => hx ⟨n, h⟩]) hq
  · refine ⟨canonOS (proc n) i, canonFs proc fs0 tr i, ?_, fun q hq => ?_, fun _ _ => ⟨rfl, ?_⟩⟩
    · rw [hout, prun_done _ _ _ ⟨rfl, rfl, rfl⟩]
      cases hf : (proc n).retcodeFile <;> rfl
    · rw [prun_done _ _ _ ⟨rfl, rfl, rfl⟩]
      rw [canonFs_end hi]
      cases hf : (proc n).retcodeFile with
      | none =>
        have h1 : q ∈ (proc n).output := by simpa [Process.writes, hf] using hq
        show _ = (if q ∈ (proc n).output then _ else _)
        rw [if_pos h1, if_pos h1]
      | some f =>
        show _ = (if q = f then _ else if q ∈ (proc n).output then _ else _)
        by_cases h2 : q = f
        · subst h2
          rw [if_neg (hret n q hf), if_pos rfl, if_pos rfl]
          have : (showInt 0).take 9 = showInt 0 := by decide
          show _ = some (⟨_, (showInt 0).take 9⟩ : PFile)
          rw [this]; rfl
        · have h1 : q ∈ (proc n).output := by
            simp only [Process.writes, hf, Option.toList_some, List.mem_append,
              List.mem_singleton] at hq
            exact hq.resolve_right h2
          rw [if_pos h1, if_neg h2, if_pos h1]
    · intro o ho
      refine ⟨_, if_pos ho, fun j b hj => ?_⟩
      have := hord i n hi j b hj
      show (j : Int) < i
      omega

/-- the conditions of `canon_world` on the history, checked -/
def canonOk (tr : List Event) : Bool :=
  (List.range tr.length).all fun i => match tr[i]? with
    | some (.jobEnd n) =>
      ((tr.take i).any fun e => match e with | .jobBegin m _ => m == n | _ => false) &&
      ((tr.take i).all fun e => match e with | .jobEnd m => m != n | _ => true) &&
      ((tr.drop i).all fun e => match e with | .jobBegin m _ => m != n | _ => true)
    | _ => true

theorem canonOk_spec {tr : List Event} (h : canonOk tr = true) {i : Nat} {n : Node}
    (hi : tr[i]? = some (.jobEnd n)) :
    Running (tr.take i) n ∧ ∀ (j : Nat) (b : Bool), tr[j]? = some (.jobBegin n b) → j < i := by
  have hl : i < tr.length := (List.getElem?_eq_some_iff.1 hi).1
  have := List.all_eq_true.1 h i (List.mem_range.2 hl)
  simp only [hi, Bool.and_eq_true, List.any_eq_true, List.all_eq_true] at this
  obtain ⟨⟨⟨e, h1, h2⟩, h3⟩, h4⟩ := this
  refine ⟨⟨?_, fun he => ?_⟩, fun j b hj => ?_⟩
  · cases e <;> simp only [Bool.false_eq_true] at h2
    rename_i m b
    rw [beq_iff_eq] at h2
    exact ⟨b, h2 ▸ h1⟩
  · simpa using h3 _ he
  · by_contra hge
    have : Event.jobBegin n b ∈ tr.drop i := by
      rw [List.mem_iff_getElem?]
      exact ⟨j - i, by rw [List.getElem?_drop, Nat.add_sub_cancel' (by omega)]; exact hj⟩
    simpa using h4 _ this

namespace Ex

/-- `a → b → c`; the second process keeps a retcode file -/
def bproc (n : Node) : Process :=
  if n = 1 then { cmd := [], input := [['a']], output := [['b']], retcodeFile := none }
  else { cmd := [], input := [['b']], output := [['c']], retcodeFile := some ['r'] }

def bdag (dep : Bool) : Dag :=
  { nodes := [2, 1]
    edges := if dep then [⟨2, 1, .invalidatedBy⟩, ⟨2, 1, .requires⟩, ⟨2, 1, .after⟩]
      else [⟨2, 1, .after⟩]
    name := fun n => List.replicate n 'x'
    task := fun n => n }

def bcfg (dep : Bool) (fs : FS) : Cfg :=
  { dag := bdag dep
    resources := fun _ => []
    hasJob := fun _ => true
    ask := fun n => .answer ((bproc n).isInvalidated (fun _ => []) fs)
    outcome := fun n => .ret { retcode := some 0, output := [], log := (bproc n).shown }
    threadCount := 0 }

theorem bwf (dep : Bool) (fs : FS) : (bcfg dep fs).dag.WF := by
  cases dep <;> constructor
  · show [2, 1].Nodup; decide
  · show ∀ e ∈ (bdag false).edges, e.src ∈ (bdag false).nodes ∧ e.tgt ∈ (bdag false).nodes; decide
  · show [2, 1].Nodup; decide
  · show ∀ e ∈ (bdag true).edges, e.src ∈ (bdag true).nodes ∧ e.tgt ∈ (bdag true).nodes; decide

/-- only the source is there -/
def bfs0 : FS := fun q => if q = ['a'] then some ⟨-5, []⟩ else none

/-- everything is there, but `b` is older than `a` -/
def bfs1 : FS := fun q =>
  if q = ['a'] then some ⟨-5, []⟩ else if q = ['b'] then some ⟨-8, []⟩
  else if q = ['c'] then some ⟨-7, []⟩ else if q = ['r'] then some ⟨-7, showInt 0⟩ else none

def bmoves : List Move := List.replicate 16 .ctl

theorem bplan (fs : FS) : Plan (bcfg true fs).dag bproc := by
  refine ⟨?_, ?_, ?_, ?_, ?_⟩
  · show ∀ n ∈ [2, 1], ∀ m ∈ [2, 1], n ≠ m → ∀ q ∈ (bproc n).writes, q ∉ (bproc m).writes
    decide +kernel
  · intro n _ f hf
    unfold bproc at hf ⊢
    split at hf
    · cases hf
    · rename_i h
      cases hf
      rw [if_neg h]
      show ['r'] ∉ [['c']]
      decide
  · intro n hn q hq
    replace hn : n = 2 ∨ n = 1 := by simpa [bcfg, bdag] using hn
    rcases hn with rfl | rfl
    · right
      refine ⟨1, by show 1 ∈ [2, 1]; decide, ?_, ?_, ?_⟩
      · have : q ∈ [['b']] := hq
        exact this
      · show _ ∈ (bdag true).edges; decide
      · show _ ∈ (bdag true).edges; decide
    · left
      have : q = ['a'] := by simpa [bproc] using hq
      subst this
      show ∀ m ∈ [2, 1], ['a'] ∉ (bproc m).writes
      decide +kernel
  · show ∀ n ∈ [2, 1], (bproc n).input ≠ []
    decide +kernel
  · show ∀ n ∈ [2, 1], (bproc n).output ≠ []
    decide +kernel

theorem bworld (dep : Bool) (fs0 : FS) (old : ∀ q f, fs0 q = some f → f.time < 0)
    (ha : (fs0 ['a']).isSome) (hok : canonOk (exec (bcfg dep fs0) bmoves).trace = true) :
    BuildRun (bcfg dep fs0).dag (bcfg dep fs0).outcome bproc (exec (bcfg dep fs0) bmoves).trace
      (fun i => i) (canonFs bproc fs0 (exec (bcfg dep fs0) bmoves).trace) := by
  refine canon_world (fun _ => rfl) ?_ old ?_ (fun i n h => (canonOk_spec hok h).1)
    (fun i n h => (canonOk_spec hok h).2)
  · intro n f hf
    unfold bproc at hf ⊢
    split at hf
    · cases hf
    · rename_i h
      cases hf
      rw [if_neg h]
      show ['r'] ∉ [['c']]
      decide
  · intro n hn q hq hs
    replace hn : n = 2 ∨ n = 1 := by simpa [bcfg, bdag] using hn
    rcases hn with rfl | rfl
    · exfalso
      have : q = ['b'] := by simpa [bproc] using hq
      subst this
      exact hs 1 (by show 1 ∈ [2, 1]; decide) (by decide +kernel)
    · have : q = ['a'] := by simpa [bproc] using hq
      subst this
      exact ha

theorem bold0 : ∀ q f, bfs0 q = some f → f.time < 0 := by
  intro q f h
  unfold bfs0 at h
  split at h
  · cases h; decide
  · cases h

theorem bold1 : ∀ q f, bfs1 q = some f → f.time < 0 := by
  intro q f h
  unfold bfs1 at h
  split at h
  · cases h; decide
  · split at h
    · cases h; decide
    · split at h
      · cases h; decide
      · split at h
        · cases h; decide
        · cases h

end Ex

/-- a first build from sources only: both tasks run, and all hypotheses of `C60_null_build` hold -/
example : Plan (Ex.bcfg true Ex.bfs0).dag Ex.bproc ∧
    BuildRun (Ex.bcfg true Ex.bfs0).dag (Ex.bcfg true Ex.bfs0).outcome Ex.bproc
      (exec (Ex.bcfg true Ex.bfs0) Ex.bmoves).trace (fun i => i)
      (canonFs Ex.bproc Ex.bfs0 (exec (Ex.bcfg true Ex.bfs0) Ex.bmoves).trace) ∧
    AsksAt (Ex.bcfg true Ex.bfs0) Ex.bproc (fun _ => []) Ex.bfs0 ∧
    (∀ n ∈ [2, 1], ((Ex.bproc n).isInvalidated (fun _ => []) Ex.bfs0).invalidated = false →
      ∀ o ∈ (Ex.bproc n).output, (Ex.bfs0 o).isSome) ∧
    (exec (Ex.bcfg true Ex.bfs0) Ex.bmoves).phase = .finished ∧
    (recsOf (exec (Ex.bcfg true Ex.bfs0) Ex.bmoves).trace).map (fun r => r.status) = [.ok, .ok] :=
  ⟨Ex.bplan _, Ex.bworld true _ Ex.bold0 (by decide +kernel) (by decide +kernel), fun _ _ => rfl,
    by decide +kernel, by decide +kernel, by decide +kernel⟩

/-- **C60** needs the producer of an input to be a dependency: if the task is merely ordered after it
(`run_after`), it is skipped in the execution that remakes its input, and is out of date afterwards;
a second execution has to run it. -/
theorem C60_run_after_counterexample :
    BuildRun (Ex.bcfg false Ex.bfs1).dag (Ex.bcfg false Ex.bfs1).outcome Ex.bproc
      (exec (Ex.bcfg false Ex.bfs1) Ex.bmoves).trace (fun i => i)
      (canonFs Ex.bproc Ex.bfs1 (exec (Ex.bcfg false Ex.bfs1) Ex.bmoves).trace) ∧
    (exec (Ex.bcfg false Ex.bfs1) Ex.bmoves).phase = .finished ∧
    (recsOf (exec (Ex.bcfg false Ex.bfs1) Ex.bmoves).trace).map (fun r => (r.node, r.status)) =
      [(1, .ok), (2, .skip)] ∧
    ((Ex.bproc 2).isInvalidated (fun _ => []) (canonFs Ex.bproc Ex.bfs1
      (exec (Ex.bcfg false Ex.bfs1) Ex.bmoves).trace
      (exec (Ex.bcfg false Ex.bfs1) Ex.bmoves).trace.length)).invalidated = true :=
  ⟨Ex.bworld false _ Ex.bold1 (by decide +kernel) (by decide +kernel), by decide +kernel,
    by decide +kernel, by decide +kernel⟩

/-! ## a change runs exactly what depends on it -/

theorem retcodeOk_of_valid {tf : TimeFmt} {fs : FS} {p : Process}
    (h : (p.isInvalidated tf fs).invalidated = false) : RetcodeOk fs p := by
  intro f hf
  unfold Process.isInvalidated retcodeCheck at h
  rw [hf] at h
  dsimp only at h
  cases hg : fs f with
  | none => rw [hg] at h; cases h
  | some file =>
    rw [hg] at h
    refine ⟨file, rfl, ?_⟩
    by_contra hne
    simp only [if_pos hne] at h
    cases h

/-- **C61**.  All processes were up to date (`old`), then some files that no task writes were changed
and are now not older than any output (`new`).  Then the next execution runs exactly the tasks that
are, transitively, invalidated by a task with a changed input, leaving out those with a failed
dependency. -/
theorem C61_incremental (C : Cfg) (hwf : C.dag.WF) (proc : Node → Process) (tf : TimeFmt)
    (old new : FS) (ms : List Move) (hp : Plan C.dag proc) (hask : AsksAt C proc tf new)
    (hup : ∀ n ∈ C.dag.nodes, ((proc n).isInvalidated tf old).invalidated = false)
    (hin : ∀ n ∈ C.dag.nodes, ∀ i ∈ (proc n).input, (old i).isSome)
    (hout : ∀ n ∈ C.dag.nodes, ∀ o ∈ (proc n).output, (old o).isSome)
    (hchg : ∀ q, new q ≠ old q → (∀ m ∈ C.dag.nodes, q ∉ (proc m).writes) ∧
      ∃ f, new q = some f ∧ ∀ n ∈ C.dag.nodes, ∀ o ∈ (proc n).output, ∀ fo, old o = some fo →
        fo.time ≤ f.time)
    (r : RunRecord) (hr : r ∈ recsOf (exec C ms).trace) (hst : r.status ≠ .depf) :
    JobBegan (exec C ms).trace r.node ↔
      ∃ m, Relation.ReflTransGen (HasEdge C.dag .invalidatedBy) r.node m ∧
        ∃ q ∈ (proc m).input, new q ≠ old q := by
  have hI := (both_exec hwf ms).1
  have hT := (both_exec hwf ms).2
  have hrn : r.node ∈ C.dag.nodes := by
    rw [hT.recs] at hr
    exact hI.inNodes _ (by
      unfold allNodes recNodes
      simp only [List.mem_append]
      simp [List.mem_map_of_mem (f := RunRecord.node) hr])
  have hclosed : ∀ m, Relation.ReflTransGen (HasEdge C.dag .invalidatedBy) r.node m →
      m ∈ C.dag.nodes := by
    intro m h
    induction h with
    | refl => exact hrn
    | tail _ h _ => exact (hwf.closed _ h).2
  have hsame : ∀ n ∈ C.dag.nodes, ∀ q ∈ (proc n).writes, new q = old q := by
    intro n hn q hq
    by_contra hne
    exact (hchg q hne).1 n hn hq
  have hself : ∀ m ∈ C.dag.nodes, SelfStale C.ask m ↔ ∃ q ∈ (proc m).input, new q ≠ old q := by
    intro m hm
    have h1 : SelfStale C.ask m ↔ ((proc m).isInvalidated tf new).invalidated = true := by
      unfold SelfStale
      rw [hask m hm]
      constructor
      · rintro ⟨log, h⟩
        simp only [InvalOut.answer.injEq] at h
        rw [h]
      · intro h
        exact ⟨_, by rw [← h]⟩
    rw [h1]
    constructor
    · intro h
      by_contra hno
      have : (proc m).isInvalidated tf new = (proc m).isInvalidated tf old := by
        refine isInvalidated_congr tf fun q hq => ?_
        rcases hq with hq | hq
        · by_contra hne; exact hno ⟨q, hq, hne⟩
        · exact hsame m hm q hq
      rw [this, hup m hm] at h; cases h
    · rintro ⟨q, hq, hne⟩
      obtain ⟨_, f, hf, hlate⟩ := hchg q hne
      have hret : RetcodeOk new (proc m) := by
        intro g hg
        obtain ⟨file, e1, e2⟩ := retcodeOk_of_valid (hup m hm) g hg
        exact ⟨file, by rw [hsame m hm g (by simp [Process.writes, hg])]; exact e1, e2⟩
      have hons : ∀ o ∈ (proc m).output, new o = old o := fun o ho =>
        hsame m hm o (List.mem_append_left _ ho)
      rw [C34_stale tf new (proc m) hret (hp.hasInput m hm) (hp.hasOutput m hm) ?_ ?_]
      · obtain ⟨o, ho⟩ := List.exists_mem_of_ne_nil _ (hp.hasOutput m hm)
        obtain ⟨fo, hfo⟩ := Option.isSome_iff_exists.1 (hout m hm o ho)
        exact ⟨o, ho, q, hq, fo, f, by rw [hons o ho]; exact hfo, hf, hlate m hm o ho fo hfo⟩
      · intro i hi
        by_cases hc : new i = old i
        · rw [hc]; exact hin m hm i hi
        · obtain ⟨_, f', hf', _⟩ := hchg i hc
          rw [hf']; rfl
      · intro o ho
        rw [hons o ho]; exact hout m hm o ho
  rw [C08_executed_iff_stale C hwf ms r hr hst]
  constructor
  · rintro ⟨m, h1, h2⟩
    exact ⟨m, h1, (hself m (hclosed m h1)).1 h2⟩
  · rintro ⟨m, h1, h2⟩
    exact ⟨m, h1, (hself m (hclosed m h1)).2 h2⟩

/-- `a` was changed: both tasks run -/
example : let old : FS := fun q => if q = ['a'] then some ⟨-9, []⟩ else Ex.bfs1 q
    AsksAt (Ex.bcfg true Ex.bfs1) Ex.bproc (fun _ => []) Ex.bfs1 ∧
    (∀ n ∈ [2, 1], ((Ex.bproc n).isInvalidated (fun _ => []) old).invalidated = false) ∧
    (∀ n ∈ [2, 1], ∀ i ∈ (Ex.bproc n).input, (old i).isSome) ∧
    (∀ n ∈ [2, 1], ∀ o ∈ (Ex.bproc n).output, (old o).isSome) ∧
    (∀ q, Ex.bfs1 q ≠ old q → (∀ m ∈ [2, 1], q ∉ (Ex.bproc m).writes) ∧
      ∃ f, Ex.bfs1 q = some f ∧ ∀ n ∈ [2, 1], ∀ o ∈ (Ex.bproc n).output, ∀ fo, old o = some fo →
        fo.time ≤ f.time) ∧
    (recsOf (exec (Ex.bcfg true Ex.bfs1) Ex.bmoves).trace).map (fun r => (r.node, r.status)) =
      [(1, .ok), (2, .ok)] := by
  refine ⟨fun _ _ => rfl, by decide +kernel, by decide +kernel, by decide +kernel, ?_,
    by decide +kernel⟩
  intro q hq
  have : q = ['a'] := by
    by_contra hne
    exact hq (by simp only [if_neg hne])
  subst this
  refine ⟨by decide +kernel, _, rfl, ?_⟩
  have h : ∀ n ∈ [2, 1], ∀ o ∈ (Ex.bproc n).output, ∀ fo ∈ ((if o = ['a'] then some ⟨-9, []⟩
      else Ex.bfs1 o : Option PFile)).toList, fo.time ≤ -5 := by decide +kernel
  intro n hn o ho fo hfo
  exact h n hn o ho fo (by rw [Option.mem_toList]; exact hfo)

end Joque
