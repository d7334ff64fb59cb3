import Verif.Spec.Incremental
import Verif.Props.Determined3

/-! # Executing only what is out of date gives what executing everything gives (C124) -/

namespace Joque

variable {K V : Type} {A : Footprint K} {J : Commands K V}

/-- **C124**.  If the tasks that are not out of date fit what they read in the beginning, then in the end
every task fits what it reads, except for those with a failed dependency: the executed ones because they
read their final inputs, the others because their inputs have not changed. -/
theorem C124_fits (A : Footprint K) (J : Commands K V) (C : Cfg) (hwf : C.dag.WF)
    (hA : A.Wired C.dag) (hJ : J.FromReads A) (ms : List Move)
    (hfin : (exec C ms).phase = .finished) (cont : Nat → K → V)
    (W : Workspace A J C.outcome (exec C ms).trace cont)
    (hfresh : ∀ n ∈ C.dag.nodes, ¬ Stale C.dag C.ask n → Fits A J (cont 0) n)
    (r : RunRecord) (hr : r ∈ (exec C ms).erec.runs) (hst : r.status ≠ .depf) :
    Fits A J (cont (exec C ms).trace.length) r.node := by
  obtain ⟨hI, hT⟩ := both_exec hwf ms
  have o := orderly_finished hwf ms hfin
  have hperm := (C02_one_record C hwf ms hfin).1
  have hn : r.node ∈ C.dag.nodes := hperm.mem_iff.1 (List.mem_map_of_mem hr)
  have h8 := C08_executed_iff_stale C hwf ms r (by rw [hT.recs]; exact hr) hst
  intro q hq
  by_cases hb : JobBegan (exec C ms).trace r.node
  · obtain ⟨j, hj⟩ := began_beginsAt hb
    obtain ⟨e, hje, he⟩ := o.ends hj
    have hel := (List.getElem?_eq_some_iff.1 he).1
    obtain ⟨b, hjb⟩ := hj
    -- nobody writes the results later
    have h1 : cont (exec C ms).trace.length q = cont (e + 1) q := by
      refine W.stays (by omega) (Nat.le_refl _) fun k h1 _ m hm hw => ?_
      obtain ⟨i, hik, hi⟩ := running_begins hm
      by_cases hmr : m = r.node
      · subst hmr
        have := (running_index o hm hi).2 e he
        omega
      · exact hA.single m (o.node hi) r.node hn hmr q hw hq
    -- nobody changes the inputs once the job has begun
    have h2 : ∀ x, A.reads r.node x → cont (exec C ms).trace.length x = cont j x := by
      intro x hx
      refine W.stays (by omega) (Nat.le_refl _) fun k h1 _ m hm hw => ?_
      obtain ⟨i, hik, hi⟩ := running_begins hm
      obtain ⟨e', h3, h4, h5⟩ := o.order (hA.inputs r.node hn m (o.node hi) x hx hw).1 hi ⟨b, hjb⟩
      have := (running_index o hm hi).2 e' h5
      omega
    rw [h1, (W.result e j r.node b hjb he).2 q hq]
    exact hJ r.node _ _ (fun x hx => (h2 x hx).symm) q hq
  · have hns : ¬ Stale C.dag C.ask r.node := fun h => hb (h8.2 h)
    have h1 : cont (exec C ms).trace.length q = cont 0 q := by
      refine W.stays (Nat.zero_le _) (Nat.le_refl _) fun k _ _ m hm hw => ?_
      obtain ⟨i, hik, hi⟩ := running_begins hm
      by_cases hmr : m = r.node
      · exact hb (hmr ▸ beginsAt_began hi)
      · exact hA.single m (o.node hi) r.node hn hmr q hw hq
    have h2 : ∀ x, A.reads r.node x → cont (exec C ms).trace.length x = cont 0 x := by
      intro x hx
      refine W.stays (Nat.zero_le _) (Nat.le_refl _) fun k _ _ m hm hw => ?_
      obtain ⟨i, hik, y, hi⟩ := running_begins hm
      obtain ⟨pre, post, h3, _⟩ := split_get hi
      obtain ⟨z, hz1, hz2⟩ : Stale C.dag C.ask m := (hT.always pre _ post h3).2.2.2.2.2.1
      have := (hA.inputs r.node hn m (o.node ⟨y, hi⟩) x hx hw).2
      exact hns ⟨z, this.to_reflTransGen.trans hz1, hz2⟩
    rw [h1, hfresh r.node hn hns q hq]
    exact hJ r.node _ _ (fun x hx => (h2 x hx).symm) q hq

/-- **C124**, there is only one way for all tasks to fit, given the places no task writes. -/
theorem C124_unique {g : Dag} (hac : ¬ ∃ n, Relation.TransGen (AfterEdge g) n n) (hA : A.Wired g)
    (hJ : J.FromReads A) (c1 c2 : K → V)
    (hsrc : ∀ q, (∀ n ∈ g.nodes, ¬ A.writes n q) → c1 q = c2 q)
    (h1 : ∀ n ∈ g.nodes, Fits A J c1 n) (h2 : ∀ n ∈ g.nodes, Fits A J c2 n) (q : K) :
    c1 q = c2 q := by
  classical
  let Same : Node → Prop := fun n => ∀ q, A.writes n q → c1 q = c2 q
  have hstep : ∀ n ∈ g.nodes, (∀ m ∈ g.nodes, Relation.TransGen (AfterEdge g) n m → Same m) →
      Same n := by
    intro n hn ih q hq
    rw [h1 n hn q hq, h2 n hn q hq]
    refine hJ n _ _ (fun x hx => ?_) q hq
    by_cases hw : ∃ m ∈ g.nodes, A.writes m x
    · obtain ⟨m, hm, hw⟩ := hw
      exact ih m hm (hA.inputs n hn m hm x hx hw).1 x hw
    · exact hsrc x fun m hm h => hw ⟨m, hm, h⟩
  have hall : ∀ n ∈ g.nodes, Same n := by
    by_contra hcon
    push Not at hcon
    obtain ⟨n, hn, hbad⟩ := hcon
    have hne : (g.nodes.filter fun n => ¬ Same n) ≠ [] := by
      intro h
      have : n ∈ g.nodes.filter fun n => ¬ Same n := by simp [hn, hbad]
      rw [h] at this; cases this
    obtain ⟨c, hc, hmin⟩ := exists_minimal (R := Relation.TransGen (AfterEdge g))
      (by rw [Relation.transGen_eq_self]; exact hac) _ _ (Nat.le_refl _) hne
    simp only [List.mem_filter, decide_eq_true_eq] at hc hmin
    refine hc.2 (hstep c hc.1 fun m hm hcm => ?_)
    by_contra hbm
    exact hmin m ⟨hm, hbm⟩ hcm
  by_cases hw : ∃ m ∈ g.nodes, A.writes m q
  · obtain ⟨m, hm, hw⟩ := hw
    exact hall m hm q hw
  · exact hsrc q fun m hm h => hw ⟨m, hm, h⟩

/-- places no task writes stay -/
theorem source_stays {C : Cfg} (hwf : C.dag.WF) {ms : List Move} {cont : Nat → K → V}
    (hfin : (exec C ms).phase = .finished) (W : Workspace A J C.outcome (exec C ms).trace cont) {q : K}
    (hq : ∀ n ∈ C.dag.nodes, ¬ A.writes n q) : cont (exec C ms).trace.length q = cont 0 q := by
  refine W.stays (Nat.zero_le _) (Nat.le_refl _) fun k _ _ m hm hw => ?_
  obtain ⟨i, _, hi⟩ := running_begins hm
  exact hq m ((orderly_finished hwf ms hfin).node hi) hw

/-- **C124**.  Two executions of the dag without failures, in which different tasks may be out of date
(say all of them in one, and only few in the other), starting with the same sources: they leave the same
everywhere, with any thread counts and schedules. -/
theorem C124_same (A : Footprint K) (J : Commands K V) (C1 C2 : Cfg) (hwf : C1.dag.WF)
    (hdag : C2.dag = C1.dag) (hA : A.Wired C1.dag) (hJ : J.FromReads A) (ms1 ms2 : List Move)
    (hf1 : (exec C1 ms1).phase = .finished) (hf2 : (exec C2 ms2).phase = .finished)
    (cont1 cont2 : Nat → K → V)
    (W1 : Workspace A J C1.outcome (exec C1 ms1).trace cont1)
    (W2 : Workspace A J C2.outcome (exec C2 ms2).trace cont2)
    (hg1 : ∀ r ∈ (exec C1 ms1).erec.runs, r.status ≠ .depf)
    (hg2 : ∀ r ∈ (exec C2 ms2).erec.runs, r.status ≠ .depf)
    (hfresh1 : ∀ n ∈ C1.dag.nodes, ¬ Stale C1.dag C1.ask n → Fits A J (cont1 0) n)
    (hfresh2 : ∀ n ∈ C2.dag.nodes, ¬ Stale C2.dag C2.ask n → Fits A J (cont2 0) n)
    (h0 : ∀ q, (∀ n ∈ C1.dag.nodes, ¬ A.writes n q) → cont1 0 q = cont2 0 q) (q : K) :
    cont1 (exec C1 ms1).trace.length q = cont2 (exec C2 ms2).trace.length q := by
  have hwf2 : C2.dag.WF := hdag ▸ hwf
  have hac : ¬ ∃ n, Relation.TransGen (AfterEdge C1.dag) n n :=
    (both_exec hwf ms1).1.acyc (by rw [hf1]; rfl)
  have key1 : ∀ n ∈ C1.dag.nodes, Fits A J (cont1 (exec C1 ms1).trace.length) n := by
    intro n hn
    obtain ⟨r, hr, rfl⟩ := List.mem_map.1 ((C02_one_record C1 hwf ms1 hf1).1.mem_iff.2 hn)
    exact C124_fits A J C1 hwf hA hJ ms1 hf1 cont1 W1 hfresh1 r hr (hg1 r hr)
  have key2 : ∀ n ∈ C1.dag.nodes, Fits A J (cont2 (exec C2 ms2).trace.length) n := by
    intro n hn
    rw [← hdag] at hn
    obtain ⟨r, hr, rfl⟩ := List.mem_map.1 ((C02_one_record C2 hwf2 ms2 hf2).1.mem_iff.2 hn)
    exact C124_fits A J C2 hwf2 (hdag ▸ hA) hJ ms2 hf2 cont2 W2 hfresh2 r hr (hg2 r hr)
  refine C124_unique hac hA hJ _ _ (fun x hx => ?_) key1 key2 q
  rw [source_stays hwf hf1 W1 hx, source_stays hwf2 hf2 W2 (hdag ▸ hx), h0 x hx]

/-! ## processes -/

/-- processes that fit together as in C60 -/
theorem plan_wired {g : Dag} {proc : Node → Process} (hp : Plan g proc) : (filesOf proc).Wired g := by
  refine ⟨fun n hn m hm hne q hq hw => hp.disjoint n hn m hm hne q hq hw, fun n hn m hm q hq hw => ?_⟩
  rcases hp.inputs n hn q hq with h | ⟨m', hm', ho, ha, hi⟩
  · exact absurd hw (h m hm)
  · by_cases hmm : m' = m
    · exact hmm ▸ ⟨.single ha, .single hi⟩
    · exact absurd hw (hp.disjoint m' hm' m hm hmm q (List.mem_append_left _ ho))

/-- a process that is up to date after a change of sources as in C61 has unchanged inputs -/
theorem fresh_unchanged {C : Cfg} {proc : Node → Process} {tf : TimeFmt} {old new : FS}
    (hp : Plan C.dag proc) (hask : AsksAt C proc tf new)
    (hup : ∀ n ∈ C.dag.nodes, ((proc n).isInvalidated tf old).invalidated = false)
    (hin : ∀ n ∈ C.dag.nodes, ∀ i ∈ (proc n).input, (old i).isSome)
    (hout : ∀ n ∈ C.dag.nodes, ∀ o ∈ (proc n).output, (old o).isSome)
    (hchg : ∀ q, new q ≠ old q → (∀ m ∈ C.dag.nodes, q ∉ (proc m).writes) ∧
      ∃ f, new q = some f ∧ ∀ n ∈ C.dag.nodes, ∀ o ∈ (proc n).output, ∀ fo, old o = some fo →
        fo.time ≤ f.time)
    {m : Node} (hm : m ∈ C.dag.nodes) (hs : ¬ SelfStale C.ask m) :
    ∀ q ∈ (proc m).input, new q = old q := by
  have hsame : ∀ n ∈ C.dag.nodes, ∀ q ∈ (proc n).writes, new q = old q := by
    intro n hn q hq
    by_contra hne
    exact (hchg q hne).1 n hn hq
  by_contra hcon
  push Not at hcon
  obtain ⟨q, hq, hne⟩ := hcon
  apply hs
  have h1 : ((proc m).isInvalidated tf new).invalidated = true → SelfStale C.ask m := by
    intro h
    refine ⟨((proc m).isInvalidated tf new).log, ?_⟩
    rw [hask m hm, ← h]
  apply h1
  obtain ⟨_, f, hf, hlate⟩ := hchg q hne
  have hret : RetcodeOk new (proc m) := by
    intro g hg
    obtain ⟨file, e1, e2⟩ := retcodeOk_of_valid (hup m hm) g hg
    exact ⟨file, by rw [hsame m hm g (by simp [Process.writes, hg])]; exact e1, e2⟩
  have hons : ∀ o ∈ (proc m).output, new o = old o := fun o ho =>
    hsame m hm o (List.mem_append_left _ ho)
  rw [C34_stale tf new (proc m) hret (hp.hasInput m hm) (hp.hasOutput m hm) ?_ ?_]
  · obtain ⟨o, ho⟩ := List.exists_mem_of_ne_nil _ (hp.hasOutput m hm)
    obtain ⟨fo, hfo⟩ := Option.isSome_iff_exists.1 (hout m hm o ho)
    exact ⟨o, ho, q, hq, fo, f, by rw [hons o ho]; exact hfo, hf, hlate m hm o ho fo hfo⟩
  · intro i hi
    by_cases hc : new i = old i
    · rw [hc]; exact hin m hm i hi
    · obtain ⟨_, f', hf', _⟩ := hchg i hc
      rw [hf']; rfl
  · intro o ho
    rw [hons o ho]; exact hout m hm o ho

/-- **C124** for processes.  All outputs fitted their inputs and were up to date (`old`); then some sources
were replaced by files not older than any output (`new`), as in C61.  After the next execution every output
fits again, except for tasks with a failed dependency. -/
theorem C124_change (C : Cfg) (hwf : C.dag.WF) (proc : Node → Process) (tf : TimeFmt)
    (J : Commands Str (Option Str)) (old new : FS) (ms : List Move) (hp : Plan C.dag proc)
    (hJ : J.FromReads (filesOf proc)) (hask : AsksAt C proc tf new)
    (hup : ∀ n ∈ C.dag.nodes, ((proc n).isInvalidated tf old).invalidated = false)
    (hin : ∀ n ∈ C.dag.nodes, ∀ i ∈ (proc n).input, (old i).isSome)
    (hout : ∀ n ∈ C.dag.nodes, ∀ o ∈ (proc n).output, (old o).isSome)
    (hchg : ∀ q, new q ≠ old q → (∀ m ∈ C.dag.nodes, q ∉ (proc m).writes) ∧
      ∃ f, new q = some f ∧ ∀ n ∈ C.dag.nodes, ∀ o ∈ (proc n).output, ∀ fo, old o = some fo →
        fo.time ≤ f.time)
    (hold : ∀ n ∈ C.dag.nodes, Fits (filesOf proc) J old.contents n)
    (hfin : (exec C ms).phase = .finished) (fs : Nat → FS) (h0 : fs 0 = new)
    (W : Workspace (filesOf proc) J C.outcome (exec C ms).trace fun i => (fs i).contents)
    (r : RunRecord) (hr : r ∈ (exec C ms).erec.runs) (hst : r.status ≠ .depf) :
    Fits (filesOf proc) J (fs (exec C ms).trace.length).contents r.node := by
  refine C124_fits (filesOf proc) J C hwf (plan_wired hp) hJ ms hfin (fun i => (fs i).contents) W ?_ r hr hst
  intro n hn hs
  have hsame : ∀ q ∈ (proc n).input, new q = old q :=
    fresh_unchanged hp hask hup hin hout hchg hn fun h => hs ⟨n, .refl, h⟩
  intro q hq
  show (fs 0).contents q = J.effect n (fs 0).contents q
  have hw : new q = old q := by
    by_contra hne
    exact (hchg q hne).1 n hn hq
  have := hold n hn q hq
  rw [h0, FS.contents, hw, ← FS.contents, this]
  exact hJ n _ _ (fun x hx => by unfold FS.contents; rw [hsame x hx]) q hq

/-! ## examples -/

namespace Ex

/-- built from an `a` containing `p` -/
def built : FS := fun q =>
  if q = ['a'] then some ⟨-9, ['p']⟩ else if q = ['b'] then some ⟨-8, ['x', 'p']⟩
  else if q = ['c'] then some ⟨-7, ['y', 'x', 'p']⟩ else if q = ['r'] then some ⟨-7, showInt 0⟩ else none

/-- then `a` is replaced by one containing `s`, dated `t` -/
def replaced (t : Int) : FS := fun q => if q = ['a'] then some ⟨t, ['s']⟩ else built q

theorem bcommands_reads : bcommands.FromReads (filesOf bproc) := by
  intro n c c' h q _
  simp only [bcommands]
  split
  · rename_i hn
    rw [h ['a'] (by simp [filesOf, bproc, hn])]
  · rename_i hn
    rw [h ['b'] (by simp [filesOf, bproc, hn])]

/-- what `bcommands` leaves, when executed from these files -/
def bfiles (fs : FS) (tr : List Event) (i : Nat) : FS :=
  dated fs (contents bwrites bcommands fs.contents tr i).1

theorem bfiles_zero (fs : FS) (tr : List Event) : bfiles fs tr 0 = fs := by
  funext q; exact if_pos rfl

theorem bfiles_workspace (fs : FS) (ms : List Move)
    (hfin : (exec (bcfg true fs) ms).phase = .finished) :
    Workspace (filesOf bproc) bcommands (bcfg true fs).outcome (exec (bcfg true fs) ms).trace
      fun i => (bfiles fs (exec (bcfg true fs) ms).trace i).contents := by
  have W := contents_workspace (fun n q => q ∈ (bproc n).input) bwrites bcommands
    (bcfg true fs) (bwf true _) (fun _ _ => rfl) ms hfin fs.contents
  have hfoot : (⟨fun n q => q ∈ (bproc n).input, fun n q => bwrites n q = true⟩ : Footprint Str)
      = filesOf bproc := by
    unfold filesOf bwrites
    simp
  rw [hfoot] at W
  have : (fun i => (bfiles fs (exec (bcfg true fs) ms).trace i).contents)
      = fun i => (contents bwrites bcommands fs.contents (exec (bcfg true fs) ms).trace i).1 := by
    funext i q
    exact dated_content _ _ _
  rw [this]
  exact W

theorem built_fits : ∀ n ∈ (bdag true).nodes, Fits (filesOf bproc) bcommands built.contents n := by
  have h : ∀ n ∈ [2, 1], ∀ q ∈ (bproc n).writes,
      built.contents q = bcommands.effect n built.contents q := by decide +kernel
  exact fun n hn q hq => h n hn q hq

theorem replaced_change (t : Int) : ∀ q, replaced t q ≠ built q → q = ['a'] := by
  intro q hq
  by_contra hne
  exact hq (by simp only [replaced, if_neg hne])

end Ex

/-- `a` is replaced by a newer file: the hypotheses of `C124_change` are met, both tasks are executed, and
`c` is made of the new `a` -/
example : ∃ fs : Nat → FS, fs 0 = Ex.replaced (-5) ∧
    (exec (Ex.bcfg true (Ex.replaced (-5))) Ex.bmoves).phase = .finished ∧
    Workspace (filesOf Ex.bproc) Ex.bcommands (Ex.bcfg true (Ex.replaced (-5))).outcome
      (exec (Ex.bcfg true (Ex.replaced (-5))) Ex.bmoves).trace (fun i => (fs i).contents) ∧
    (∀ n ∈ (Ex.bdag true).nodes, Fits (filesOf Ex.bproc) Ex.bcommands Ex.built.contents n) ∧
    (∀ n ∈ [2, 1], ((Ex.bproc n).isInvalidated (fun _ => []) Ex.built).invalidated = false) ∧
    (∀ q, Ex.replaced (-5) q ≠ Ex.built q → (∀ m ∈ [2, 1], q ∉ (Ex.bproc m).writes) ∧
      ∃ f, Ex.replaced (-5) q = some f ∧ ∀ n ∈ [2, 1], ∀ o ∈ (Ex.bproc n).output, ∀ fo,
        Ex.built o = some fo → fo.time ≤ f.time) ∧
    (fs (exec (Ex.bcfg true (Ex.replaced (-5))) Ex.bmoves).trace.length).contents ['c']
      = some ['y', 'x', 's'] := by
  have f1 : (exec (Ex.bcfg true (Ex.replaced (-5))) Ex.bmoves).phase = .finished := by decide +kernel
  refine ⟨Ex.bfiles (Ex.replaced (-5)) _, Ex.bfiles_zero _ _, f1, Ex.bfiles_workspace _ _ f1, Ex.built_fits,
    by decide +kernel, fun q hq => ?_, by decide +kernel⟩
  obtain rfl := Ex.replaced_change _ q hq
  refine ⟨by decide +kernel, _, rfl, ?_⟩
  have h : ∀ n ∈ [2, 1], ∀ o ∈ (Ex.bproc n).output, ∀ fo ∈ (Ex.built o).toList, fo.time ≤ -5 := by
    decide +kernel
  intro n hn o ho fo hfo
  exact h n hn o ho fo (by rw [Option.mem_toList]; exact hfo)

/-- **C124** needs the new file to be newer.  If `a` is replaced by a file that keeps an old date (as `cp -p`
or unpacking an archive does), everything is skipped, and what is left is not what executing everything
gives. -/
theorem C124_date_counterexample : ∃ (C : Cfg) (proc : Node → Process) (J : Commands Str (Option Str))
    (old new : FS) (ms : List Move) (fs : Nat → FS),
    C.dag.WF ∧ Plan C.dag proc ∧ J.FromReads (filesOf proc) ∧ AsksAt C proc (fun _ => []) new ∧
    (∀ n ∈ C.dag.nodes, Fits (filesOf proc) J old.contents n) ∧
    (∀ q, new q ≠ old q → (∀ m ∈ C.dag.nodes, q ∉ (proc m).writes) ∧ ∃ f, new q = some f) ∧
    (exec C ms).phase = .finished ∧ fs 0 = new ∧
    Workspace (filesOf proc) J C.outcome (exec C ms).trace (fun i => (fs i).contents) ∧
    (∀ r ∈ (exec C ms).erec.runs, r.status = .skip) ∧
    ∃ n ∈ C.dag.nodes, ¬ Fits (filesOf proc) J (fs (exec C ms).trace.length).contents n := by
  have f1 : (exec (Ex.bcfg true (Ex.replaced (-20))) Ex.bmoves).phase = .finished := by decide +kernel
  refine ⟨Ex.bcfg true (Ex.replaced (-20)), Ex.bproc, Ex.bcommands, Ex.built, Ex.replaced (-20), Ex.bmoves,
    Ex.bfiles (Ex.replaced (-20)) _, Ex.bwf true _, Ex.bplan _, Ex.bcommands_reads, fun _ _ => rfl, Ex.built_fits,
    fun q hq => ?_, f1, Ex.bfiles_zero _ _, Ex.bfiles_workspace _ _ f1, by decide +kernel,
    1, by show 1 ∈ [2, 1]; decide, fun h => ?_⟩
  · obtain rfl := Ex.replaced_change _ q hq
    refine ⟨?_, _, rfl⟩
    show ∀ m ∈ [2, 1], _
    decide +kernel
  · have hw : (filesOf Ex.bproc).writes 1 ['b'] := by
      show ['b'] ∈ (Ex.bproc 1).writes
      decide +kernel
    exact absurd (h ['b'] hw) (by decide +kernel)

end Joque
