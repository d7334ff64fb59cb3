import Verif.Props.Incremental2

/-! # Builds as in C124 exist -/

namespace Joque

section
variable {proc : Node → Process} {J : Commands Str (Option Str)} {fs0 : FS} {tr : List Event}

/-- which files a process writes -/
def writesB (proc : Node → Process) (n : Node) (q : Str) : Bool := decide (q ∈ (proc n).writes)

/-- every job leaves what it makes of what it found, at the moment it ends -/
def filled (proc : Node → Process) (J : Commands Str (Option Str)) (fs0 : FS) (tr : List Event) :
    Nat → FS
  | 0 => fs0
  | i + 1 => match tr[i]? with
    | some (.jobEnd n) => fun q =>
      if q ∈ (proc n).writes then
        (J.effect n ((contents (writesB proc) J fs0.contents tr i).2 n) q).map fun x => ⟨i, x⟩
      else filled proc J fs0 tr i q
    | _ => filled proc J fs0 tr i

theorem filled_end {i : Nat} {n : Node} (h : tr[i]? = some (.jobEnd n)) (q : Str) :
    filled proc J fs0 tr (i + 1) q = if q ∈ (proc n).writes then
        (J.effect n ((contents (writesB proc) J fs0.contents tr i).2 n) q).map fun x => ⟨i, x⟩
      else filled proc J fs0 tr i q := by
  rw [filled]
  simp only [h]

theorem filled_other {i : Nat} (h : ∀ n, tr[i]? ≠ some (.jobEnd n)) :
    filled proc J fs0 tr (i + 1) = filled proc J fs0 tr i := by
  rw [filled]
  split
  · rename_i n he; exact absurd he (h n)
  · rfl

theorem filled_contents : ∀ i, i ≤ tr.length →
    (filled proc J fs0 tr i).contents = (contents (writesB proc) J fs0.contents tr i).1 := by
  intro i
  induction i with
  | zero => intro _; rfl
  | succ i ih =>
    intro hi
    have he : tr[i]? = some tr[i] := List.getElem?_eq_getElem (by omega)
    rw [contents_succ he]
    by_cases hx : ∃ n, tr[i]? = some (.jobEnd n)
    · obtain ⟨n, hn⟩ := hx
      have : tr[i] = .jobEnd n := by rw [he] at hn; exact Option.some.inj hn
      rw [this]
      funext q
      simp only [Snapshot.after, ← ih (by omega), FS.contents]
      rw [filled_end hn]
      by_cases hq : q ∈ (proc n).writes
      · rw [if_pos hq, if_pos (by simp [writesB, hq])]
        cases J.effect n ((contents (writesB proc) J fs0.contents tr i).2 n) q <;> rfl
      · rw [if_neg hq, if_neg (by simp [writesB, hq])]
    · rw [filled_other fun n h => hx ⟨n, h⟩, ih (by omega)]
      cases hy : tr[i] <;> simp only [Snapshot.after]
      rename_i n
      exact absurd ⟨n, by rw [he, hy]⟩ hx

end

/-- commands that make all outputs, and leave 0 in the retcode file -/
structure Commands.Makes (J : Commands Str (Option Str)) (proc : Node → Process) : Prop where
  outputs : ∀ n c, ∀ o ∈ (proc n).output, ∃ x, J.effect n c o = some x
  retcode : ∀ n c f, (proc n).retcodeFile = some f → J.effect n c f = some (showInt 0)

/-- what the child does -/
def filledOS (p : Process) (eff : Str → Option Str) (i : Nat) : POS :=
  { start := ⟨0, false, []⟩, chunks := [], drain := ⟨0, false, []⟩, exit := 0, wait := ⟨0, false, []⟩
    effect := fun fs q => if q ∈ p.output then (eff q).map fun x => ⟨i, x⟩ else fs q
    removeFails := none, canWrite := true, room := 9, now := i }

/-- **C124**, the hypotheses can be met: commands that succeed and make all their outputs give, in every
schedule that finishes, a build as asked for. -/
theorem C124_possible (C : Cfg) (hwf : C.dag.WF) (proc : Node → Process) (tf : TimeFmt)
    (J : Commands Str (Option Str)) (hJ : J.Makes proc) (hJo : ∀ n c, J.outcome n c = C.outcome n)
    (hout : ∀ n, C.outcome n = .ret { retcode := some 0, output := [], log := (proc n).shown })
    (fs0 : FS) (hask : AsksAt C proc tf fs0) (old : ∀ q f, fs0 q = some f → f.time < 0)
    (sources : ∀ n ∈ C.dag.nodes, ∀ q ∈ (proc n).input, (∀ m ∈ C.dag.nodes, q ∉ (proc m).writes) →
      (fs0 q).isSome)
    (ms : List Move) (hfin : (exec C ms).phase = .finished)
    (hgood : ∀ r ∈ recsOf (exec C ms).trace, r.status = .ok ∨ r.status = .skip) :
    GoodBuild C.dag proc tf J fs0 (filled proc J fs0 (exec C ms).trace (exec C ms).trace.length) := by
  refine ⟨C, ms, fun i => i, filled proc J fs0 (exec C ms).trace, rfl, hask, hfin, hgood, rfl, rfl, ?_, ?_⟩
  · refine ⟨fun i j h => by omega, old, sources, fun i hi q hq => ?_, fun i n hi => ?_⟩
    · by_cases hx : ∃ n, (exec C ms).trace[i]? = some (.jobEnd n)
      · obtain ⟨n, he⟩ := hx
        rw [filled_end he] at hq ⊢
        by_cases h1 : q ∈ (proc n).writes
        · refine ⟨⟨n, end_after hwf ms hfin he, h1⟩, ?_⟩
          rw [if_pos h1]
          intro f hf
          obtain ⟨x, _, rfl⟩ := Option.map_eq_some_iff.1 hf
          rfl
        · rw [if_neg h1] at hq
          exact absurd rfl hq
      · exact absurd (by rw [filled_other fun n h => hx ⟨n, h⟩]) hq
    · set found := (contents (writesB proc) J fs0.contents (exec C ms).trace i).2 n with hfound
      refine ⟨filledOS (proc n) (J.effect n found) i, filled proc J fs0 (exec C ms).trace i, ?_,
        fun q hq => ?_, fun _ _ => ⟨rfl, ?_⟩⟩
      · rw [hout, prun_done _ _ _ ⟨rfl, rfl, rfl⟩]
        cases hf : (proc n).retcodeFile <;> rfl
      · rw [prun_done _ _ _ ⟨rfl, rfl, rfl⟩]
        rw [filled_end hi, if_pos hq, ← hfound]
        cases hf : (proc n).retcodeFile with
        | none =>
          have h1 : q ∈ (proc n).output := by simpa [Process.writes, hf] using hq
          show _ = (if q ∈ (proc n).output then _ else _)
          rw [if_pos h1]
        | some f =>
          show _ = (if q = f then _ else if q ∈ (proc n).output then _ else _)
          by_cases h2 : q = f
          · subst h2
            rw [if_pos rfl, hJ.retcode n found q hf]
            have : (showInt 0).take 9 = showInt 0 := by decide
            show _ = some (⟨_, (showInt 0).take 9⟩ : PFile)
            rw [this]; rfl
          · have h1 : q ∈ (proc n).output := by
              simp only [Process.writes, hf, Option.toList_some, List.mem_append,
                List.mem_singleton] at hq
              exact hq.resolve_right h2
            rw [if_neg h2, if_pos h1]
      · intro o ho
        obtain ⟨x, hx⟩ := hJ.outputs n found o ho
        refine ⟨⟨i, x⟩, ?_, fun j b hj => ?_⟩
        · show (if o ∈ (proc n).output then (J.effect n found o).map _ else _) = _
          rw [if_pos ho, hx]; rfl
        · have := tag_lt hwf ms hj hi (n := n) (x := .begin b) (y := .end) (by simp [tagOf])
            (by simp [tagOf]) (by simp [Tag.rank])
          show (j : Int) < i
          omega
  · have W := contents_workspace (fun n q => q ∈ (proc n).input) (writesB proc) J C hwf hJo ms hfin fs0.contents
    have hfoot : (⟨fun n q => q ∈ (proc n).input, fun n q => writesB proc n q = true⟩ : Footprint Str)
        = filesOf proc := by
      unfold filesOf writesB
      simp
    rw [hfoot] at W
    refine ⟨fun i hi q hne => W.change i hi q ?_, fun i j n b hj hi => ?_⟩
    · rw [← filled_contents i (by omega), ← filled_contents (i + 1) (by omega)]
      exact hne
    · have hil := (List.getElem?_eq_some_iff.1 hi).1
      have hjl := (List.getElem?_eq_some_iff.1 hj).1
      have := W.result i j n b hj hi
      rw [← filled_contents j (by omega), ← filled_contents (i + 1) (by omega)] at this
      exact this

namespace Ex

/-- 1 makes `b` of `a`, 2 makes `c` of `b` and leaves 0 in `r` -/
def bmakes : Commands Str (Option Str) :=
  { effect := fun n c q =>
      if n = 1 then some ('x' :: (c ['a']).getD [])
      else if q = ['r'] then some (showInt 0) else some ('y' :: (c ['b']).getD [])
    outcome := fun n _ => .ret { retcode := some 0, output := [], log := (bproc n).shown } }

theorem bmakes_reads : bmakes.FromReads (filesOf bproc) := by
  intro n c c' h q _
  simp only [bmakes]
  split
  · rename_i hn
    rw [h ['a'] (by simp [filesOf, bproc, hn])]
  · rename_i hn
    rw [h ['b'] (by simp [filesOf, bproc, hn])]

theorem bmakes_all : bmakes.Makes bproc := by
  constructor
  · intro n c o _
    simp only [bmakes]
    split
    · exact ⟨_, rfl⟩
    · split <;> exact ⟨_, rfl⟩
  · intro n c f hf
    unfold bproc at hf
    split at hf
    · cases hf
    · rename_i hn
      cases hf
      simp [bmakes, hn]

theorem bsources (fs : FS) (ha : (fs ['a']).isSome) : ∀ n ∈ (bdag true).nodes, ∀ q ∈ (bproc n).input,
    (∀ m ∈ (bdag true).nodes, q ∉ (bproc m).writes) → (fs q).isSome := by
  intro n hn q hq hs
  replace hn : n = 2 ∨ n = 1 := by simpa [bdag] using hn
  rcases hn with rfl | rfl
  · exfalso
    have : q = ['b'] := by simpa [bproc] using hq
    subst this
    exact hs 1 (by show 1 ∈ [2, 1]; decide) (by decide +kernel)
  · have : q = ['a'] := by simpa [bproc] using hq
    subst this
    exact ha

theorem built_past : ∀ q f, built q = some f → f.time < 0 := by
  intro q f h
  unfold built at h
  split at h
  · cases h; decide
  · split at h
    · cases h; decide
    · split at h
      · cases h; decide
      · split at h
        · cases h; decide
        · cases h

theorem replaced_past (t : Int) (ht : t < 0) : ∀ q f, replaced t q = some f → f.time < 0 := by
  intro q f h
  unfold replaced at h
  split at h
  · cases h; exact ht
  · exact built_past q f h

/-- only the new source is there -/
def fromScratch : FS := fun q => if q = ['a'] then some ⟨-3, ['s']⟩ else none

/-- a build of these files on the control thread -/
def after (fs : FS) : FS :=
  filled bproc bmakes fs (exec (bcfg true fs) bmoves).trace (exec (bcfg true fs) bmoves).trace.length

theorem after_built (fs : FS) (old : ∀ q f, fs q = some f → f.time < 0) (ha : (fs ['a']).isSome)
    (hfin : (exec (bcfg true fs) bmoves).phase = .finished)
    (hgood : ∀ r ∈ recsOf (exec (bcfg true fs) bmoves).trace, r.status = .ok ∨ r.status = .skip) :
    GoodBuild (bdag true) bproc (fun _ => []) bmakes fs (after fs) :=
  C124_possible (bcfg true fs) (bwf true fs) bproc _ bmakes bmakes_all (fun _ _ => rfl)
    (fun _ => rfl) fs (fun _ _ => rfl) old (bsources fs ha) bmoves hfin hgood

theorem after_source {fs : FS} (h : GoodBuild (bdag true) bproc (fun _ => []) bmakes fs (after fs)) {q : Str}
    (hq : ∀ n ∈ (bdag true).nodes, q ∉ (bproc n).writes) : (after fs).contents q = fs.contents q := by
  obtain ⟨C, ms, clock, cfs, hC, hask, hfin, hgood, h0, h1, W, W'⟩ := h
  have hwf : C.dag.WF := hC ▸ bwf true fs
  have := source_stays hwf hfin W' (q := q) (fun n hn => hq n (hC ▸ hn))
  rw [h0, h1] at this
  exact this

theorem same_sources {q : Str} (hq : ∀ n ∈ (bdag true).nodes, q ∉ (bproc n).writes) :
    (replaced (-5)).contents q = fromScratch.contents q := by
  have h1 := hq 1 (by show 1 ∈ [2, 1]; decide)
  have h2 := hq 2 (by show 2 ∈ [2, 1]; decide)
  have hb : q ≠ ['b'] := by rintro rfl; exact h1 (by decide +kernel)
  have hc : q ≠ ['c'] := by rintro rfl; exact h2 (by decide +kernel)
  have hr : q ≠ ['r'] := by rintro rfl; exact h2 (by decide +kernel)
  unfold FS.contents replaced fromScratch built
  by_cases ha : q = ['a']
  · simp [ha]
  · simp [ha, hb, hc, hr]

end Ex

/-- The hypotheses of `C124_clean` are met: everything was built, then `a` was replaced, and the dag executed;
the other execution begins with the new `a` only.  Both leave a `c` made of the new `a`. -/
example : ∃ b d : FS,
    AllFit (Ex.bdag true) Ex.bproc (fun _ => []) Ex.bmakes Ex.built ∧
    Rounds (Ex.bdag true) Ex.bproc (fun _ => []) Ex.bmakes Ex.built b ∧
    RightAnswers (Ex.bdag true) Ex.bproc (fun _ => []) Ex.bmakes Ex.fromScratch ∧
    GoodBuild (Ex.bdag true) Ex.bproc (fun _ => []) Ex.bmakes Ex.fromScratch d ∧
    (∀ q, (∀ n ∈ (Ex.bdag true).nodes, q ∉ (Ex.bproc n).writes) →
      b.contents q = Ex.fromScratch.contents q) ∧
    b.contents ['c'] = some ['y', 'x', 's'] ∧ d.contents ['c'] = some ['y', 'x', 's'] := by
  have g1 := Ex.after_built _ (Ex.replaced_past (-5) (by decide)) rfl (by decide +kernel) (by decide +kernel)
  refine ⟨Ex.after (Ex.replaced (-5)), Ex.after Ex.fromScratch, ⟨?_, ?_, ?_, ?_⟩,
    .round (.none _) (c := Ex.replaced (-5)) ?_ g1, ?_,
    Ex.after_built _ ?_ rfl (by decide +kernel) (by decide +kernel),
    fun q hq => (Ex.after_source g1 hq).trans (Ex.same_sources hq), by decide +kernel, by decide +kernel⟩
  · show ∀ n ∈ [2, 1], _
    decide +kernel
  · show ∀ n ∈ [2, 1], _
    decide +kernel
  · show ∀ n ∈ [2, 1], _
    decide +kernel
  · have h : ∀ n ∈ [2, 1], ∀ q ∈ (Ex.bproc n).writes,
        Ex.built.contents q = Ex.bmakes.effect n Ex.built.contents q := by decide +kernel
    exact fun n hn q hq => h n hn q hq
  · intro q hq
    obtain rfl := Ex.replaced_change _ q hq
    refine ⟨by show ∀ m ∈ [2, 1], _; decide +kernel, _, rfl, ?_⟩
    have h : ∀ n ∈ [2, 1], ∀ o ∈ (Ex.bproc n).output, ∀ fo ∈ (Ex.built o).toList, fo.time ≤ -5 := by
      decide +kernel
    intro n hn o ho fo hfo
    exact h n hn o ho fo (by rw [Option.mem_toList]; exact hfo)
  · have h : ∀ n ∈ [2, 1], ((Ex.bproc n).isInvalidated (fun _ => []) Ex.fromScratch).invalidated = true := by
      decide +kernel
    intro n hn hv
    rw [h n hn] at hv
    cases hv
  · intro q f h
    unfold Ex.fromScratch at h
    split at h
    · cases h; decide
    · cases h

/-- The hypotheses of `C124_same` are met by an execution that skips everything and one that begins with
`a` only and executes everything. -/
example : ∃ C1 C2 : Cfg, C2.dag = C1.dag ∧ (filesOf Ex.bproc).Wired C1.dag ∧
    ∃ ms1 ms2, (exec C1 ms1).phase = .finished ∧ (exec C2 ms2).phase = .finished ∧
    (exec C1 ms1).erec.runs.map (·.status) = [.skip, .skip] ∧
    (exec C2 ms2).erec.runs.map (·.status) = [.ok, .ok] ∧
    ∃ cont1 cont2 : Nat → Str → Option Str,
    Workspace (filesOf Ex.bproc) Ex.bcommands C1.outcome (exec C1 ms1).trace cont1 ∧
    Workspace (filesOf Ex.bproc) Ex.bcommands C2.outcome (exec C2 ms2).trace cont2 ∧
    (∀ n ∈ C1.dag.nodes, Fits (filesOf Ex.bproc) Ex.bcommands (cont1 0) n) ∧
    (∀ n ∈ C2.dag.nodes, Stale C2.dag C2.ask n) ∧
    cont2 0 ['c'] = none ∧ cont2 (exec C2 ms2).trace.length ['c'] = some ['y', 'x', 'p'] := by
  let fs2 : FS := fun q => if q = ['a'] then some ⟨-9, ['p']⟩ else none
  have f1 : (exec (Ex.bcfg true Ex.built) Ex.bmoves).phase = .finished := by decide +kernel
  have f2 : (exec (Ex.bcfg true fs2) Ex.bmoves).phase = .finished := by decide +kernel
  refine ⟨Ex.bcfg true Ex.built, Ex.bcfg true fs2, rfl, plan_wired (Ex.bplan Ex.built), Ex.bmoves, Ex.bmoves,
    f1, f2, by decide +kernel, by decide +kernel, _, _, Ex.bfiles_workspace _ _ f1, Ex.bfiles_workspace _ _ f2,
    ?_, ?_, ?_, by decide +kernel⟩
  · show ∀ n ∈ _, Fits _ _ (Ex.bfiles _ _ 0).contents n
    rw [Ex.bfiles_zero]
    exact Ex.built_fits
  · have h : ∀ n ∈ [2, 1], ((Ex.bproc n).isInvalidated (fun _ => []) fs2).invalidated = true := by
      decide +kernel
    intro n hn
    refine ⟨n, .refl, ((Ex.bproc n).isInvalidated (fun _ => []) fs2).log, ?_⟩
    rw [← h n hn]
    rfl
  · show (Ex.bfiles _ _ 0).contents ['c'] = none
    rw [Ex.bfiles_zero]
    rfl

end Joque
