import Verif.Props.Incremental

/-! # Any number of changes and builds (C124) -/

namespace Joque

variable {g : Dag} {proc : Node → Process} {tf : TimeFmt} {J : Commands Str (Option Str)}

/-- **C124**, an execution that begins with right answers and in which nothing fails leaves everything as it
should be. -/
theorem C124_settles (hwf : g.WF) (hp : Plan g proc) (hJ : J.FromReads (filesOf proc)) {a b : FS}
    (ha : RightAnswers g proc tf J a) (h : GoodBuild g proc tf J a b) : AllFit g proc tf J b := by
  obtain ⟨C, ms, clock, fs, rfl, hask, hfin, hgood, rfl, rfl, W, W'⟩ := h
  obtain ⟨hI, hT⟩ := both_exec hwf ms
  have hperm := (C02_one_record C hwf ms hfin).1
  have hrec : ∀ n ∈ C.dag.nodes, ∃ r ∈ recsOf (exec C ms).trace, r.node = n := by
    intro n hn
    rw [hT.recs]
    exact List.mem_map.1 (hperm.mem_iff.2 hn)
  have hself : ∀ n ∈ C.dag.nodes, ¬ Stale C.dag C.ask n →
      ((proc n).isInvalidated tf (fs 0)).invalidated = false := by
    intro n hn hs
    by_contra hne
    refine hs ⟨n, .refl, ((proc n).isInvalidated tf (fs 0)).log, ?_⟩
    rw [hask n hn]
    have : ((proc n).isInvalidated tf (fs 0)).invalidated = true := by simpa using hne
    rw [← this]
  have hout : ∀ n ∈ C.dag.nodes, ∀ o ∈ (proc n).output, (fs (exec C ms).trace.length o).isSome := by
    intro n hn o ho
    obtain ⟨r, hr, rfl⟩ := hrec n hn
    have hbe := began_of_status hT (by rw [← hT.recs]; exact hr)
    rcases hgood r hr with hst | hst
    · obtain ⟨e, he⟩ := List.mem_iff_getElem?.1 (hbe.2 (hbe.1.2 (.inl hst)))
      obtain ⟨m1, m2, _⟩ := W.made hwf hp hr hst hn he
      obtain ⟨f, hf, _⟩ := m2 o ho
      rw [m1 o (List.mem_append_left _ ho), hf]
      rfl
    · have hnb : ¬ JobBegan (exec C ms).trace r.node := by
        rw [hbe.1, hst]; simp
      rw [W.untouched hwf hp hn hnb (List.mem_append_left _ ho)]
      have hns : ¬ Stale C.dag C.ask r.node := fun hs =>
        hnb ((C08_executed_iff_stale C hwf ms r hr (by rw [hst]; simp)).2 hs)
      exact (ha r.node hn (hself _ hn hns)).1 o ho
  refine ⟨C60_up_to_date C hwf proc tf clock fs ms hp W hask (fun n hn h => (ha n hn h).1) hfin hgood, ?_, hout, ?_⟩
  · intro n hn i hi
    rcases hp.inputs n hn i hi with hs | ⟨m, hm, hmo, _, _⟩
    · rw [W.source hwf hs (Nat.le_refl _)]
      exact W.sources n hn i hi hs
    · exact hout m hm i hmo
  · intro n hn
    obtain ⟨r, hr, rfl⟩ := hrec n hn
    refine C124_fits (filesOf proc) J C hwf (plan_wired hp) hJ ms hfin (fun i => (fs i).contents) W'
      (fun m hm hs => (ha m hm (hself m hm hs)).2) r (by rw [← hT.recs]; exact hr) ?_
    rcases hgood r hr with h | h <;> rw [h] <;> simp

/-- **C124**, after a change of sources the answers are right. -/
theorem C124_honest (hp : Plan g proc) (hJ : J.FromReads (filesOf proc)) {a b : FS}
    (ha : AllFit g proc tf J a) (h : NewSources g proc a b) : RightAnswers g proc tf J b := by
  intro n hn hv
  have hw : ∀ m ∈ g.nodes, ∀ q ∈ (proc m).writes, b q = a q := by
    intro m hm q hq
    by_contra hne
    exact (h q hne).1 m hm hq
  -- a configuration that asks about `b`
  let C : Cfg :=
    { dag := g
      resources := fun _ => []
      hasJob := fun _ => true
      ask := fun n => .answer ((proc n).isInvalidated tf b)
      outcome := fun _ => .ret { retcode := some 0, output := [], log := [] }
      threadCount := 0 }
  have hsame : ∀ q ∈ (proc n).input, b q = a q := by
    refine fresh_unchanged (C := C) hp (fun _ _ => rfl) ha.fresh ha.inputs ha.outputs h hn ?_
    rintro ⟨log, hl⟩
    simp only [C, InvalOut.answer.injEq] at hl
    rw [hl] at hv
    cases hv
  refine ⟨fun o ho => ?_, fun q hq => ?_⟩
  · rw [hw n hn o (List.mem_append_left _ ho)]
    exact ha.outputs n hn o ho
  · rw [FS.contents, hw n hn q hq, ← FS.contents, ha.fits n hn q hq]
    exact hJ n _ _ (fun x hx => by unfold FS.contents; rw [hsame x hx]) q hq

/-- **C124**.  However many times sources are changed and the dag is executed, everything is as it should be
afterwards, if nothing fails. -/
theorem C124_builds (hwf : g.WF) (hp : Plan g proc) (hJ : J.FromReads (filesOf proc)) {a b : FS}
    (ha : AllFit g proc tf J a) (h : Rounds g proc tf J a b) : AllFit g proc tf J b := by
  induction h with
  | none => exact ha
  | round _ he hb ih => exact C124_settles hwf hp hJ (C124_honest hp hJ ih he) hb

/-- **C124**.  After any number of changes and executions, all files have the contents a single execution
from the same sources gives, for instance one that begins without any outputs. -/
theorem C124_clean (hwf : g.WF) (hac : ¬ ∃ n, Relation.TransGen (AfterEdge g) n n) (hp : Plan g proc)
    (hJ : J.FromReads (filesOf proc)) {a b c d : FS} (ha : AllFit g proc tf J a)
    (hb : Rounds g proc tf J a b) (hc : RightAnswers g proc tf J c) (hd : GoodBuild g proc tf J c d)
    (hsrc : ∀ q, (∀ n ∈ g.nodes, q ∉ (proc n).writes) → b.contents q = c.contents q) (q : Str) :
    b.contents q = d.contents q := by
  have hs := C124_settles hwf hp hJ hc hd
  refine C124_unique hac (plan_wired hp) hJ _ _ (fun x hx => ?_) (C124_builds hwf hp hJ ha hb).fits hs.fits q
  rw [hsrc x hx]
  obtain ⟨C, ms, clock, fs, rfl, hask, hfin, hgood, rfl, rfl, W, W'⟩ := hd
  exact (source_stays hwf hfin W' hx).symm

end Joque
