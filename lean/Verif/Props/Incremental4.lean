import Verif.Props.Incremental3

/-! # What C124 asks of the dag -/

namespace Joque

/-- a build with `run_after` between the two tasks, instead of `depends_on` -/
theorem Ex.loose_workspace (fs : FS) (ms : List Move) (hfin : (exec (Ex.bcfg false fs) ms).phase = .finished) :
    Workspace (filesOf Ex.bproc) Ex.bmakes (Ex.bcfg false fs).outcome (exec (Ex.bcfg false fs) ms).trace
      fun i => (filled Ex.bproc Ex.bmakes fs (exec (Ex.bcfg false fs) ms).trace i).contents := by
  have W := contents_workspace (fun n q => q ∈ (Ex.bproc n).input) (writesB Ex.bproc) Ex.bmakes
    (Ex.bcfg false fs) (Ex.bwf false _) (fun _ _ => rfl) ms hfin fs.contents
  have hfoot : (⟨fun n q => q ∈ (Ex.bproc n).input, fun n q => writesB Ex.bproc n q = true⟩ : Footprint Str)
      = filesOf Ex.bproc := by
    unfold filesOf writesB
    simp
  rw [hfoot] at W
  refine ⟨fun i hi q hne => W.change i hi q ?_, fun i j n b hj hi => ?_⟩
  · rw [← filled_contents i (by omega), ← filled_contents (i + 1) (by omega)]
    exact hne
  · have hil := (List.getElem?_eq_some_iff.1 hi).1
    have hjl := (List.getElem?_eq_some_iff.1 hj).1
    have := W.result i j n b hj hi
    rw [← filled_contents j (by omega), ← filled_contents (i + 1) (by omega)] at this
    exact this

theorem filled_stays {proc : Node → Process} {J : Commands Str (Option Str)} {fs0 : FS} {tr : List Event}
    {q : Str} (h : ∀ n, .jobEnd n ∈ tr → q ∉ (proc n).writes) : ∀ i, filled proc J fs0 tr i q = fs0 q := by
  intro i
  induction i with
  | zero => rfl
  | succ i ih =>
    by_cases hx : ∃ n, tr[i]? = some (.jobEnd n)
    · obtain ⟨n, hn⟩ := hx
      rw [filled_end hn, if_neg (h n (List.mem_of_getElem? hn)), ih]
    · rw [filled_other fun n h => hx ⟨n, h⟩, ih]

/-- what the first execution leaves: a new `b`, dated `t`, and the old `c` -/
def Ex.halfway (t : Int) : FS := fun q =>
  if q = ['b'] then some ⟨t, ['x', 's']⟩ else Ex.replaced (-5) q

/-- only this job ends -/
def onlyEnds (m : Node) : Event → Bool
  | .jobEnd n => n == m
  | _ => true

theorem Ex.halfway_eq : filled Ex.bproc Ex.bmakes (Ex.replaced (-5))
      (exec (Ex.bcfg false (Ex.replaced (-5))) Ex.bmoves).trace
      (exec (Ex.bcfg false (Ex.replaced (-5))) Ex.bmoves).trace.length = Ex.halfway 10 := by
  funext q
  by_cases hq : q = ['b']
  · subst hq
    decide +kernel
  · rw [Ex.halfway, if_neg hq]
    refine filled_stays (fun n hn => ?_) _
    have h : ∀ e ∈ (exec (Ex.bcfg false (Ex.replaced (-5))) Ex.bmoves).trace, onlyEnds 1 e = true := by
      decide +kernel
    obtain rfl : n = 1 := by simpa [onlyEnds] using h _ hn
    simpa [Process.writes, Ex.bproc] using hq

/-- **C124** needs `depends_on` between the task that makes a file and the one that reads it.  With
`run_after` the order is right, but the question whether the second task is out of date was answered before
the first one changed its input: everything fitted, a source was replaced by a newer file, nothing fails, and
the second task is skipped although its output does not fit.  The next execution, without any change in
between, executes it, and then everything fits. -/
theorem C124_run_after_counterexample : ∃ (C C2 : Cfg) (proc : Node → Process)
    (J : Commands Str (Option Str)) (old : FS) (ms ms2 : List Move) (fs fs2 : Nat → FS),
    C.dag.WF ∧ C2.dag = C.dag ∧ J.FromReads (filesOf proc) ∧
    (∀ n ∈ C.dag.nodes, ∀ m ∈ C.dag.nodes, ∀ q, (filesOf proc).reads n q → (filesOf proc).writes m q →
      AfterEdge C.dag n m) ∧
    (∀ n ∈ C.dag.nodes, ((proc n).isInvalidated (fun _ => []) old).invalidated = false) ∧
    (∀ n ∈ C.dag.nodes, Fits (filesOf proc) J old.contents n) ∧
    NewSources C.dag proc old (fs 0) ∧
    AsksAt C proc (fun _ => []) (fs 0) ∧ (exec C ms).phase = .finished ∧
    Workspace (filesOf proc) J C.outcome (exec C ms).trace (fun i => (fs i).contents) ∧
    (exec C ms).erec.runs.map (fun r => (r.node, r.status)) = [(1, .ok), (2, .skip)] ∧
    ¬ Fits (filesOf proc) J (fs (exec C ms).trace.length).contents 2 ∧
    AsksAt C2 proc (fun _ => []) (fs (exec C ms).trace.length) ∧
    fs2 0 = fs (exec C ms).trace.length ∧ (exec C2 ms2).phase = .finished ∧
    Workspace (filesOf proc) J C2.outcome (exec C2 ms2).trace (fun i => (fs2 i).contents) ∧
    (exec C2 ms2).erec.runs.map (fun r => (r.node, r.status)) = [(1, .skip), (2, .ok)] ∧
    ∀ n ∈ C.dag.nodes, Fits (filesOf proc) J (fs2 (exec C2 ms2).trace.length).contents n := by
  let f0 := Ex.replaced (-5)
  let mid : FS := Ex.halfway 10
  have f1 : (exec (Ex.bcfg false f0) Ex.bmoves).phase = .finished := by decide +kernel
  have f2 : (exec (Ex.bcfg false mid) Ex.bmoves).phase = .finished := by decide +kernel
  refine ⟨Ex.bcfg false f0, Ex.bcfg false mid, Ex.bproc, Ex.bmakes, Ex.built, Ex.bmoves, Ex.bmoves,
    filled Ex.bproc Ex.bmakes f0 _, filled Ex.bproc Ex.bmakes mid _, Ex.bwf false _, rfl, Ex.bmakes_reads,
    ?_, ?_, ?_, ?_, fun _ _ => rfl, f1, Ex.loose_workspace _ _ f1, by decide +kernel, ?_, ?_, Ex.halfway_eq.symm, f2,
    Ex.loose_workspace _ _ f2, by decide +kernel, ?_⟩
  · have h : ∀ n ∈ [2, 1], ∀ m ∈ [2, 1], ∀ q ∈ (Ex.bproc n).input, q ∈ (Ex.bproc m).writes → n = 2 ∧ m = 1 := by
      decide +kernel
    intro n hn m hm q h1 h2
    obtain ⟨rfl, rfl⟩ := h n hn m hm q h1 h2
    simp [AfterEdge, HasEdge, Ex.bcfg, Ex.bdag]
  · show ∀ n ∈ [2, 1], _
    decide +kernel
  · have h : ∀ n ∈ [2, 1], ∀ q ∈ (Ex.bproc n).writes,
        Ex.built.contents q = Ex.bmakes.effect n Ex.built.contents q := by decide +kernel
    exact fun n hn q hq => h n hn q hq
  · intro q hq
    obtain rfl := Ex.replaced_change _ q hq
    refine ⟨by show ∀ m ∈ [2, 1], _; decide +kernel, _, rfl, ?_⟩
    have h : ∀ n ∈ [2, 1], ∀ o ∈ (Ex.bproc n).output, ∀ fo ∈ (Ex.built o).toList, fo.time ≤ -5 := by
      decide +kernel
    intro n hn o ho fo hfo
    exact h n hn o ho fo (by rw [Option.mem_toList]; exact hfo)
  · intro h
    have hw : (filesOf Ex.bproc).writes 2 ['c'] := by
      show ['c'] ∈ (Ex.bproc 2).writes
      decide +kernel
    exact absurd (h ['c'] hw) (by decide +kernel)
  · intro n _
    show _ = InvalOut.answer ((Ex.bproc n).isInvalidated _ (filled Ex.bproc Ex.bmakes (Ex.replaced (-5)) _ _))
    rw [Ex.halfway_eq]
    rfl
  · have h : ∀ n ∈ [2, 1], ∀ q ∈ (Ex.bproc n).writes,
        (filled Ex.bproc Ex.bmakes mid (exec (Ex.bcfg false mid) Ex.bmoves).trace
          (exec (Ex.bcfg false mid) Ex.bmoves).trace.length).contents q
        = Ex.bmakes.effect n (filled Ex.bproc Ex.bmakes mid (exec (Ex.bcfg false mid) Ex.bmoves).trace
          (exec (Ex.bcfg false mid) Ex.bmoves).trace.length).contents q := by decide +kernel
    exact fun n hn q hq => h n hn q hq

end Joque
