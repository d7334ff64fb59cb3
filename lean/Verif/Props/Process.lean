import Verif.Props.Torn

/-! # Subprocess jobs (C34–C38, C54–C56) -/

namespace Joque

/-! ## staleness -/

/-- **C34**.  With inputs and outputs all present (and success recorded, if a retcode file is used)
a process is invalidated iff some output is not newer than some input. -/
theorem C34_stale (tf : TimeFmt) (fs : FS) (p : Process) (hr : RetcodeOk fs p)
    (hi : p.input ≠ []) (ho : p.output ≠ []) (hin : ∀ i ∈ p.input, (fs i).isSome)
    (hout : ∀ o ∈ p.output, (fs o).isSome) :
    (p.isInvalidated tf fs).invalidated = true ↔
      ∃ o ∈ p.output, ∃ i ∈ p.input, NotNewer fs o i := by
  obtain ⟨m, hm, hmin, h⟩ := isInvalidated_times tf fs p hr hi ho
  rw [h]
  constructor
  · rintro (hn | ⟨i, hi, hle⟩)
    · have := hout m hm; rw [hn] at this; cases this
    · obtain ⟨fm, e1⟩ := Option.isSome_iff_exists.1 (hout m hm)
      obtain ⟨fi, e2⟩ := Option.isSome_iff_exists.1 (hin i hi)
      rw [writeTime_some e1, writeTime_some e2] at hle
      exact ⟨m, hm, i, hi, fm, fi, e1, e2, hle⟩
  · rintro ⟨o, ho, i, hi, fo, fi, e1, e2, hle⟩
    refine .inr ⟨i, hi, ?_⟩
    rw [writeTime_some e2]
    have := hmin o ho
    rw [writeTime_some e1] at this
    omega

/-- **C34**, a missing input makes the process out of date if the clock's epoch is in the future
(libstdc++)... -/
theorem C34_missing_input (tf : TimeFmt) (fs : FS) (p : Process) (hr : RetcodeOk fs p)
    (he : EpochAfter fs) (ho : p.output ≠ []) (i : Str) (hi : i ∈ p.input) (hmiss : fs i = none) :
    (p.isInvalidated tf fs).invalidated = true := by
  obtain ⟨m, hm, hmin, h⟩ := isInvalidated_times tf fs p hr (List.ne_nil_of_mem hi) ho
  rw [h]
  cases hfm : fs m with
  | none => exact .inl rfl
  | some f =>
    refine .inr ⟨i, hi, ?_⟩
    rw [writeTime_some hfm, writeTime_none hmiss]
    exact Int.le_of_lt (he m f hfm)

/-- ... and otherwise is ignored. -/
theorem C34_missing_input_ignored (tf : TimeFmt) (fs : FS) (p : Process) (hr : RetcodeOk fs p)
    (he : EpochBefore fs) (hi : p.input ≠ []) (ho : p.output ≠ [])
    (hout : ∀ o ∈ p.output, (fs o).isSome) :
    (p.isInvalidated tf fs).invalidated = true ↔
      ∃ o ∈ p.output, ∃ i ∈ p.input, NotNewer fs o i := by
  obtain ⟨m, hm, hmin, h⟩ := isInvalidated_times tf fs p hr hi ho
  rw [h]
  obtain ⟨fm, e1⟩ := Option.isSome_iff_exists.1 (hout m hm)
  constructor
  · rintro (hn | ⟨i, hi, hle⟩)
    · rw [e1] at hn; cases hn
    · rw [writeTime_some e1] at hle
      cases e2 : fs i with
      | none => rw [writeTime_none e2] at hle; have := he m fm e1; omega
      | some fi => rw [writeTime_some e2] at hle; exact ⟨m, hm, i, hi, fm, fi, e1, e2, hle⟩
  · rintro ⟨o, ho, i, hi, fo, fi, e1, e2, hle⟩
    refine .inr ⟨i, hi, ?_⟩
    rw [writeTime_some e2]
    have := hmin o ho
    rw [writeTime_some e1] at this
    omega

namespace Ex

/-- `cp a b` with `b` as output -/
def proc : Process := Process.derive [.other "cp".toList, .path ['a'], .out ['b']]

/-- `a` at time -10, `b` at the given time -/
def fsAt (tb : Int) : FS := fun q => if q = ['a'] then some ⟨-10, []⟩ else
  if q = ['b'] then some ⟨tb, []⟩ else none

end Ex

example : RetcodeOk (Ex.fsAt (-5)) Ex.proc ∧ EpochAfter (Ex.fsAt (-5)) ∧
    Ex.proc.input = [['a']] ∧ Ex.proc.output = [['b']] ∧
    (Ex.proc.isInvalidated (fun _ => []) (Ex.fsAt (-5))).invalidated = false ∧
    (Ex.proc.isInvalidated (fun _ => []) (Ex.fsAt (-10))).invalidated = true := by
  refine ⟨?_, ?_, rfl, rfl, by decide +kernel, by decide +kernel⟩
  · intro f h; cases h
  · intro q f h
    unfold Ex.fsAt at h
    split at h
    · cases h; decide
    · split at h
      · cases h; decide
      · cases h

/-! ## missing outputs -/

/-- **C35**, no outputs: always out of date. -/
theorem C35_no_output (tf : TimeFmt) (fs : FS) (p : Process) (ho : p.output = []) :
    (p.isInvalidated tf fs).invalidated = true := by
  unfold Process.isInvalidated
  cases hc : retcodeCheck fs p with
  | some r =>
    unfold retcodeCheck at hc
    cases hf : p.retcodeFile with
    | none => simp [hf] at hc
    | some f =>
      cases hg : fs f with
      | none => simp only [hf, hg, Option.some.injEq] at hc; rw [← hc]
      | some file =>
        simp only [hf, hg] at hc
        split at hc
        · cases hc; rfl
        · cases hc
  | none => simp [ho]

/-- **C35_partial**: with inputs, a missing output makes the process out of date if all outputs are
missing or the clock's epoch is before all file times. -/
theorem C35_partial (tf : TimeFmt) (fs : FS) (p : Process) (hr : RetcodeOk fs p)
    (hi : p.input ≠ []) (o : Str) (ho : o ∈ p.output) (hmiss : fs o = none)
    (h : (∀ q ∈ p.output, fs q = none) ∨ EpochBefore fs) :
    (p.isInvalidated tf fs).invalidated = true := by
  obtain ⟨m, hm, hmin, hiff⟩ := isInvalidated_times tf fs p hr hi (List.ne_nil_of_mem ho)
  rw [hiff]
  rcases h with h | h
  · exact .inl (h m hm)
  · cases hfm : fs m with
    | none => exact .inl rfl
    | some f =>
      have h1 := hmin o ho
      rw [writeTime_some hfm, writeTime_none hmiss] at h1
      have := h m f hfm
      omega

/-- **C35** is false with libstdc++'s clock: a missing output is never noticed if another output
is there; only the outputs that exist count. -/
theorem C35_unnoticed (tf : TimeFmt) (fs : FS) (p : Process) (hr : RetcodeOk fs p)
    (he : EpochAfter fs) (hi : p.input ≠ []) (hin : ∀ i ∈ p.input, (fs i).isSome) (o : Str)
    (ho : o ∈ p.output) (hex : (fs o).isSome) :
    (p.isInvalidated tf fs).invalidated = true ↔
      ∃ o ∈ p.output, ∃ i ∈ p.input, NotNewer fs o i := by
  obtain ⟨m, hm, hmin, h⟩ := isInvalidated_times tf fs p hr hi (List.ne_nil_of_mem ho)
  rw [h]
  obtain ⟨fo, e0⟩ := Option.isSome_iff_exists.1 hex
  constructor
  · rintro (hn | ⟨i, hi, hle⟩)
    · have h1 := hmin o ho
      rw [writeTime_none hn, writeTime_some e0] at h1
      have := he o fo e0
      omega
    · obtain ⟨fi, e2⟩ := Option.isSome_iff_exists.1 (hin i hi)
      rw [writeTime_some e2] at hle
      cases e1 : fs m with
      | none => rw [writeTime_none e1] at hle; have := he i fi e2; omega
      | some fm => rw [writeTime_some e1] at hle; exact ⟨m, hm, i, hi, fm, fi, e1, e2, hle⟩
  · rintro ⟨o, ho, i, hi, fo, fi, e1, e2, hle⟩
    refine .inr ⟨i, hi, ?_⟩
    rw [writeTime_some e2]
    have := hmin o ho
    rw [writeTime_some e1] at this
    omega

/-- **C35** is false without inputs: the process is out of date iff all its outputs are there. -/
theorem C35_inverted (tf : TimeFmt) (fs : FS) (p : Process) (hr : RetcodeOk fs p)
    (hi : p.input = []) (ho : p.output ≠ []) :
    (p.isInvalidated tf fs).invalidated = true ↔ ∀ o ∈ p.output, (fs o).isSome := by
  unfold Process.isInvalidated
  rw [retcodeCheck_none hr]
  cases hout : p.output with
  | nil => exact absurd hout ho
  | cons o os => simp [hi]

/-- **C35**: two processes with a missing output that are considered up to date: one without inputs,
one with two outputs. -/
theorem C35_counterexample :
    let fs : FS := Ex.fsAt (-5)
    (({ cmd := [], input := [], output := [['x']], retcodeFile := none } : Process).isInvalidated
      (fun _ => []) fs).invalidated = false ∧
    (({ cmd := [], input := [['a']], output := [['b'], ['x']], retcodeFile := none } :
      Process).isInvalidated (fun _ => []) fs).invalidated = false ∧ fs ['x'] = none := by
  decide +kernel

/-! ## the retcode file -/

/-- **C36**, no retcode file or a recorded failure: out of date. -/
theorem C36_recorded (tf : TimeFmt) (fs : FS) (p : Process) (f : Str) (hf : p.retcodeFile = some f)
    (h : fs f = none ∨ ∃ t i, fs f = some ⟨t, showInt i⟩ ∧ IsInt i ∧ i ≠ 0) :
    (p.isInvalidated tf fs).invalidated = true := by
  unfold Process.isInvalidated retcodeCheck
  rcases h with h | ⟨t, i, h, hi, h0⟩
  · simp [hf, h]
  · simp [hf, h, readInt_showInt hi, h0]

/-- **C36**, every `int` written is read back. -/
theorem C36_round_trip (i : Int) (h : IsInt i) : readInt (showInt i) = i := readInt_showInt h

/-- **C36**, after a completed run the file holds exactly the exit code, and `run` changed no other
file. -/
theorem C36_written (os : POS) (fs : FS) (p : Process) (f : Str) (hf : p.retcodeFile = some f)
    (hc : os.Completed) (hrm : os.removeFails = none) (hw : os.Stored) :
    (p.run os fs).2 f = some ⟨os.now, showInt os.exit⟩ ∧
      ∀ q, q ≠ f → (p.run os fs).2 q = os.effect fs q := by
  have hw' : writeRetcode os (os.effect fs) p.retcodeFile
      = .ok fun q => if q = f then some ⟨os.now, showInt os.exit⟩ else os.effect fs q := by
    unfold writeRetcode; simp [hf, hrm, hw.1, List.take_of_length_le hw.2]
  rw [prun_done os fs p hc, hw']
  exact ⟨if_pos rfl, fun q hq => if_neg hq⟩

/-- **C36**, whatever goes wrong (the command cannot be started, drained or waited for, the old file
cannot be removed, the new one cannot be opened or is cut short): apart from the retcode file, `run`
leaves every file as the command left it, or as it was if the command never started. -/
theorem C36_only (os : POS) (fs : FS) (p : Process) (q : Str) (hq : p.retcodeFile ≠ some q) :
    (p.run os fs).2 q = if os.start.value = 0 then os.effect fs q else fs q := by
  rcases os.cases with h | ⟨h, h2⟩ | ⟨h, h2, h3⟩ | h
  · rw [prun_start os fs p h, if_neg h]
  · rw [prun_drain os fs p h h2, if_pos h]
  · rw [prun_wait os fs p h h2 h3, if_pos h]
  · rw [prun_done os fs p h, if_pos h.1]
    cases hf : p.retcodeFile with
    | none => rfl
    | some f =>
      have hne : q ≠ f := fun he => hq (by rw [hf, he])
      simp only [writeRetcode]
      cases os.removeFails with
      | some w => rfl
      | none => cases os.canWrite <;> simp [hne]

/-- **C36_only** where the retcode file cannot be opened: the command's own output stays -/
example : ∃ (os : POS) (p : Process) (fs : FS), os.Completed ∧ os.removeFails = none ∧
    os.canWrite = false ∧ p.retcodeFile = some ['r'] ∧ (p.run os fs).2 ['r'] = none ∧
    (p.run os fs).2 ['b'] = some ⟨3, ['x']⟩ :=
  ⟨{ start := ⟨0, false, []⟩, chunks := [], drain := ⟨0, false, []⟩, exit := 0, wait := ⟨0, false, []⟩
     effect := fun fs q => if q = ['b'] then some ⟨3, ['x']⟩ else fs q
     removeFails := none, canWrite := false, room := 9, now := -1 },
    { cmd := [], input := [], output := [['b']], retcodeFile := some ['r'] },
    fun _ => none, ⟨rfl, rfl, rfl⟩, rfl, rfl, rfl, by decide +kernel, by decide +kernel⟩

/-- what a completed run leaves in the retcode file -/
theorem retcode_left (os : POS) (fs : FS) (p : Process) (f : Str) (hf : p.retcodeFile = some f)
    (hc : os.Completed) (hrm : os.removeFails = none) :
    (p.run os fs).2 f =
      if os.canWrite then some ⟨os.now, (showInt os.exit).take os.room⟩ else none := by
  rw [prun_done os fs p hc, hf]
  simp only [writeRetcode, hrm]
  cases os.canWrite <;> simp

/-- **C36**, a completed run that failed is out of date next time, whatever its files look like by
then, as long as nobody touches the retcode file; even if it could not be opened.  It is not if the
file could be opened but the device is full (`C36_full`). -/
theorem C36_failed_again (tf : TimeFmt) (os : POS) (fs fs' : FS) (p : Process) (f : Str)
    (hf : p.retcodeFile = some f) (hc : os.Completed) (hrm : os.removeFails = none)
    (ht : ¬ os.Torn) (h0 : os.exit ≠ 0) (hsame : fs' f = (p.run os fs).2 f) :
    (p.isInvalidated tf fs').invalidated = true := by
  rw [retcode_left os fs p f hf hc hrm] at hsame
  unfold Process.isInvalidated retcodeCheck
  cases hw : os.canWrite with
  | true =>
    rw [hw, if_pos rfl] at hsame
    have : readInt ((showInt os.exit).take os.room) ≠ 0 := by
      rw [ne_eq, C82_torn]
      rintro (h | h)
      · exact h0 h
      · exact ht ⟨hw, h⟩
    simp [hf, hsame, this]
  | false =>
    rw [hw, if_neg (by simp)] at hsame
    simp [hf, hsame]

/-- **C36**, a full device: a file without a digit is left behind, which counts as success. -/
theorem C36_full (os : POS) (fs : FS) (p : Process) (hc : os.Completed)
    (hrm : os.removeFails = none) (ht : os.Torn) : RetcodeOk (p.run os fs).2 p := by
  intro f hf
  refine ⟨_, by rw [retcode_left os fs p f hf hc hrm, if_pos ht.1], ?_⟩
  exact (C82_torn _ _).2 (.inr ht.2)

/-- **C56_partial** is `C36_failed_again`: a failure is remembered if the child ran to its end and
the device is not full.  Here the same with the result `run` reports. -/
theorem C56_partial (tf : TimeFmt) (os : POS) (fs fs' : FS) (p : Process) (f : Str)
    (hf : p.retcodeFile = some f) (hc : os.Completed) (hrm : os.removeFails = none)
    (ht : ¬ os.Torn) (r : RunResult) (hr : (p.run os fs).1 = .ret r) (h0 : r.retcode ≠ some 0)
    (hsame : fs' f = (p.run os fs).2 f) : (p.isInvalidated tf fs').invalidated = true := by
  refine C36_failed_again tf os fs fs' p f hf hc hrm ht ?_ hsame
  intro he
  apply h0
  rw [prun_done os fs p hc] at hr
  cases hw : writeRetcode os (os.effect fs) p.retcodeFile with
  | error w => rw [hw] at hr; cases hr
  | ok fs2 => rw [hw] at hr; cases hr; rw [he]

/-- **C56** is false: a run that could not be started, drained or waited for leaves the retcode file
as it was, so nothing is remembered. -/
theorem C56_forgotten (os : POS) (fs : FS) (p : Process) (hc : ¬ os.Completed)
    (hq : ∀ q, os.effect fs q = fs q) (q : Str) : (p.run os fs).2 q = fs q := by
  rcases os.cases with h | ⟨h, h2⟩ | ⟨h, h2, h3⟩ | h
  · rw [prun_start os fs p h]
  · rw [prun_drain os fs p h h2]; exact hq q
  · rw [prun_wait os fs p h h2 h3]; exact hq q
  · exact absurd h hc

namespace Ex

/-- `cp a b` remembering its code in `r` -/
def procR : Process := proc.setRetcodeFile ['r']

/-- last run was fine -/
def fsR : FS := fun q => if q = ['r'] then some ⟨-5, ['0']⟩ else fsAt (-5) q

/-- `cp` is not found -/
def osNone : POS :=
  { start := ⟨2, true, []⟩, chunks := [], drain := ⟨0, false, []⟩, exit := 0, wait := ⟨0, false, []⟩
    effect := id, removeFails := none, canWrite := true, room := 9, now := -1 }

end Ex

/-- **C56**: `cp a b` fails because there is no `cp`; the next execution considers `b` up to date. -/
theorem C56_counterexample :
    (∃ r, (Ex.procR.run Ex.osNone Ex.fsR).1 = .ret r ∧ r.retcode = some 2) ∧
    (Ex.procR.isInvalidated (fun _ => []) (Ex.procR.run Ex.osNone Ex.fsR).2).invalidated = false := by
  refine ⟨⟨_, rfl, by decide +kernel⟩, by decide +kernel⟩

/-- **C56** is false for the second reason as well: the command ran and exited with 7, the device is
full. -/
theorem C56_counterexample_full :
    ∃ os : POS, os.Completed ∧ os.removeFails = none ∧ os.Torn ∧
    (∃ r, (Ex.procR.run os Ex.fsR).1 = .ret r ∧ r.retcode = some 7) ∧
    (Ex.procR.run os Ex.fsR).2 ['r'] = some ⟨-1, []⟩ ∧
    (Ex.procR.isInvalidated (fun _ => []) (Ex.procR.run os Ex.fsR).2).invalidated = false :=
  ⟨{ Ex.osNone with start := ⟨0, false, []⟩, exit := 7, room := 0 }, ⟨rfl, rfl, rfl⟩, rfl,
    ⟨rfl, .inl rfl⟩, ⟨_, rfl, by decide +kernel⟩, by decide +kernel, by decide +kernel⟩

example : ∃ os : POS, os.Completed ∧ os.removeFails = none ∧ ¬ os.Torn ∧ os.Stored ∧ os.exit ≠ 0 ∧
    (Ex.procR.run os Ex.fsR).2 ['r'] = some ⟨-1, "-7".toList⟩ ∧
    (Ex.procR.isInvalidated (fun _ => []) (Ex.procR.run os Ex.fsR).2).invalidated = true :=
  ⟨{ Ex.osNone with start := ⟨0, false, []⟩, exit := -7 }, ⟨rfl, rfl, rfl⟩, rfl,
    by unfold POS.Torn; decide, by unfold POS.Stored; decide, by decide, by decide +kernel, by decide +kernel⟩

/-! ## no needless work -/

/-- **C54**.  After a run that succeeded, with all inputs there and every output newer than every
input, the process is up to date. -/
theorem C54_up_to_date (tf : TimeFmt) (os : POS) (fs : FS) (p : Process) (hc : os.Completed)
    (h0 : os.exit = 0) (hrm : os.removeFails = none) (hw : os.canWrite = true)
    (hi : p.input ≠ []) (ho : p.output ≠ [])
    (hin : ∀ i ∈ p.input, ((p.run os fs).2 i).isSome)
    (hout : ∀ o ∈ p.output, ∃ fo, (p.run os fs).2 o = some fo ∧
      ∀ i ∈ p.input, ∀ fi, (p.run os fs).2 i = some fi → fi.time < fo.time) :
    (p.isInvalidated tf (p.run os fs).2).invalidated = false := by
  have hr : RetcodeOk (p.run os fs).2 p := by
    intro f hf
    exact ⟨_, by rw [retcode_left os fs p f hf hc hrm, if_pos hw], (C82_torn _ _).2 (.inl h0)⟩
  have := C34_stale tf _ p hr hi ho hin (fun o ho => by
    obtain ⟨fo, e, _⟩ := hout o ho; rw [e]; rfl)
  cases hres : (p.isInvalidated tf (p.run os fs).2).invalidated with
  | false => rfl
  | true =>
    obtain ⟨o, ho, i, hi, fo, fi, e1, e2, hle⟩ := this.1 hres
    obtain ⟨fo', e, h⟩ := hout o ho
    rw [e1] at e
    cases e
    have := h i hi fi e2
    omega

example : ∃ os : POS, os.Completed ∧ os.exit = 0 ∧
    (Ex.procR.isInvalidated (fun _ => []) (Ex.fsAt (-20))).invalidated = true ∧
    (Ex.procR.isInvalidated (fun _ => []) (Ex.procR.run os (Ex.fsAt (-20))).2).invalidated = false :=
  ⟨{ Ex.osNone with start := ⟨0, false, []⟩, effect := fun fs q => if q = ['b'] then some ⟨-3, []⟩ else fs q },
    ⟨rfl, rfl, rfl⟩, rfl, by decide +kernel, by decide +kernel⟩

/-! ## running -/

/-- **C37**, `run` throws iff everything went well and then the old retcode file cannot be removed. -/
theorem C37_throws (os : POS) (fs : FS) (p : Process) :
    (∃ r, (p.run os fs).1 = .ret r) ∨
      (os.Completed ∧ p.retcodeFile.isSome ∧ ∃ w, os.removeFails = some w ∧
        (p.run os fs).1 = .throwsStd w) := by
  rcases os.cases with h | ⟨h, h2⟩ | ⟨h, h2, h3⟩ | h
  · left; rw [prun_start os fs p h]; exact ⟨_, rfl⟩
  · left; rw [prun_drain os fs p h h2]; exact ⟨_, rfl⟩
  · left; rw [prun_wait os fs p h h2 h3]; exact ⟨_, rfl⟩
  · rw [prun_done os fs p h]
    cases hf : p.retcodeFile with
    | none => left; exact ⟨_, rfl⟩
    | some f =>
      cases hrm : os.removeFails with
      | none =>
        left
        unfold writeRetcode
        simp only [hrm]
        cases os.canWrite <;> exact ⟨_, rfl⟩
      | some w =>
        right
        refine ⟨h, rfl, w, rfl, ?_⟩
        unfold writeRetcode
        simp only [hrm]

/-- **C37**.  The retcode returned is always set; it is 0 iff the process was started, drained, waited
for and exited with 0. -/
theorem C37_retcode (os : POS) (fs : FS) (p : Process) (r : RunResult)
    (hr : (p.run os fs).1 = .ret r) :
    ∃ c, r.retcode = some c ∧ (c = 0 ↔ os.Completed ∧ os.exit = 0) ∧
      (os.Completed → c = os.exit) := by
  rcases os.cases with h | ⟨h, h2⟩ | ⟨h, h2, h3⟩ | h
  · rw [prun_start os fs p h] at hr
    cases hr
    exact ⟨_, rfl, ⟨fun e => absurd e h, fun e => absurd e.1.1 h⟩, fun e => absurd e.1 h⟩
  · rw [prun_drain os fs p h h2] at hr
    cases hr
    exact ⟨_, rfl, ⟨fun e => absurd e h2, fun e => absurd e.1.2.1 h2⟩, fun e => absurd e.2.1 h2⟩
  · rw [prun_wait os fs p h h2 h3] at hr
    cases hr
    exact ⟨_, rfl, ⟨fun e => absurd e h3, fun e => absurd e.1.2.2 h3⟩, fun e => absurd e.2.2 h3⟩
  · rw [prun_done os fs p h] at hr
    cases hw : writeRetcode os (os.effect fs) p.retcodeFile with
    | error w => rw [hw] at hr; cases hr
    | ok fs2 =>
      rw [hw] at hr
      cases hr
      exact ⟨_, rfl, ⟨fun e => ⟨h, e⟩, fun e => e.2⟩, fun _ => rfl⟩

/-- **C37**, the output: nothing but an error message if the start failed; what was written and an
error message if draining or waiting failed; exactly what was written on success; on a non-zero exit
the command line in front of it. -/
theorem C37_output (os : POS) (fs : FS) (p : Process) (r : RunResult)
    (hr : (p.run os fs).1 = .ret r) :
    (os.start.value ≠ 0 → ∃ m, r.output = [⟨.error, m⟩]) ∧
    (os.start.value = 0 → ¬ os.Completed → ∃ m, r.output = written os.chunks ++ [⟨.error, m⟩]) ∧
    (os.Completed → os.exit = 0 → r.output = written os.chunks) ∧
    (os.Completed → os.exit ≠ 0 →
      r.output = ⟨.standard, "cmd: ".toList ++ formatCmd p.cmd⟩ :: written os.chunks) ∧
    r.log = "cmd: ".toList ++ formatCmd p.cmd := by
  show _ ∧ _ ∧ _ ∧ (_ → _ → r.output = ⟨.standard, p.shown⟩ :: _) ∧ r.log = p.shown
  rcases os.cases with h | ⟨h, h2⟩ | ⟨h, h2, h3⟩ | h
  · rw [prun_start os fs p h] at hr
    cases hr
    have hn : ¬ os.Completed := fun e => h e.1
    exact ⟨fun _ => ⟨_, rfl⟩, fun e => absurd e h, fun e => absurd e hn, fun e => absurd e hn, rfl⟩
  · rw [prun_drain os fs p h h2] at hr
    cases hr
    have hn : ¬ os.Completed := fun e => h2 e.2.1
    exact ⟨fun e => absurd h e, fun _ _ => ⟨_, rfl⟩, fun e => absurd e hn, fun e => absurd e hn, rfl⟩
  · rw [prun_wait os fs p h h2 h3] at hr
    cases hr
    have hn : ¬ os.Completed := fun e => h3 e.2.2
    exact ⟨fun e => absurd h e, fun _ _ => ⟨_, rfl⟩, fun e => absurd e hn, fun e => absurd e hn, rfl⟩
  · rw [prun_done os fs p h] at hr
    cases hw : writeRetcode os (os.effect fs) p.retcodeFile with
    | error w => rw [hw] at hr; cases hr
    | ok fs2 =>
      rw [hw] at hr
      cases hr
      exact ⟨fun e => absurd h.1 e, fun _ e => absurd h e, fun _ e => if_neg (by simpa using e),
        fun _ e => if_pos e, rfl⟩

/-- writes to both streams and fails -/
def Ex.osFail : POS :=
  { Ex.osNone with
    start := ⟨0, false, []⟩
    chunks := [(true, ['x']), (false, ['y'])]
    exit := 3 }

example : (Ex.proc.run Ex.osFail Ex.fsR).1 =
    JobOut.ret { retcode := some 3, log := "cmd: cp a b \n".toList, output := [
      ⟨.standard, "cmd: cp a b \n".toList⟩, ⟨.standard, ['x']⟩, ⟨.error, ['y']⟩] } := by decide +kernel

/-! ## building the description -/

/-- **C38**.  The command is the arguments in order; inputs are exactly the plain paths, outputs
exactly the `out` paths, in order; there is no retcode file. -/
theorem C38_derive (args : List PArg) :
    (Process.derive args).cmd = args.map PArg.text ∧
    (Process.derive args).input = args.filterMap (fun | .path p => some p | _ => none) ∧
    (Process.derive args).output = args.filterMap (fun | .out p => some p | _ => none) ∧
    (Process.derive args).retcodeFile = none := by
  have key : ∀ (args : List PArg) (r : Process), args.foldl Process.take r =
      { cmd := r.cmd ++ args.map PArg.text
        input := r.input ++ args.filterMap (fun | .path p => some p | _ => none)
        output := r.output ++ args.filterMap (fun | .out p => some p | _ => none)
        retcodeFile := r.retcodeFile } := by
    intro args
    induction args with
    | nil => intro r; simp
    | cons a args ih =>
      intro r
      rw [List.foldl_cons, ih]
      cases a <;> simp [PArg.text, Process.take]
  unfold Process.derive
  rw [key args Process.empty]
  exact ⟨rfl, rfl, rfl, rfl⟩

/-- **C38**, the builder methods append to their own field. -/
theorem C38_builders (p : Process) (q : Str) :
    p.addOutput q = { p with output := p.output ++ [q] } ∧
    p.addInput q = { p with input := p.input ++ [q] } ∧
    p.setRetcodeFile q = { p with retcodeFile := some q } := ⟨rfl, rfl, rfl⟩

example : (Process.derive [.other "cp".toList, .path ['a'], .out ['b']]).cmd
    = ["cp".toList, ['a'], ['b']] := by decide

/-! ## the command line shown -/

theorem esc_inj (xs ys r s : Str) (hx : '\\' ∉ xs) (hy : '\\' ∉ ys)
    (h : (xs.flatMap fun c => if c = ' ' then ['\\', ' '] else [c]) ++ ' ' :: r =
      (ys.flatMap fun c => if c = ' ' then ['\\', ' '] else [c]) ++ ' ' :: s) :
    xs = ys ∧ r = s := by
  induction xs generalizing ys with
  | nil =>
    cases ys with
    | nil => simpa using h
    | cons y ys =>
      exfalso
      rw [List.flatMap_cons] at h
      by_cases hc : y = ' '
      · simp [hc] at h
      · simp [hc] at h
        exact hc h.1.symm
  | cons x xs ih =>
    have hx' : x ≠ '\\' ∧ '\\' ∉ xs := by
      simp only [List.mem_cons, not_or] at hx; exact ⟨fun h => hx.1 h.symm, hx.2⟩
    cases ys with
    | nil =>
      exfalso
      rw [List.flatMap_cons] at h
      by_cases hc : x = ' '
      · simp [hc] at h
      · simp [hc] at h
    | cons y ys =>
      have hy' : y ≠ '\\' ∧ '\\' ∉ ys := by
        simp only [List.mem_cons, not_or] at hy; exact ⟨fun h => hy.1 h.symm, hy.2⟩
      rw [List.flatMap_cons, List.flatMap_cons] at h
      by_cases hc : x = ' '
      · by_cases hd : y = ' '
        · rw [if_pos hc, if_pos hd] at h
          simp only [List.cons_append, List.nil_append, List.cons.injEq, true_and] at h
          obtain ⟨h1, h2⟩ := ih ys hx'.2 hy'.2 h
          exact ⟨by rw [hc, hd, h1], h2⟩
        · rw [if_pos hc, if_neg hd] at h
          simp only [List.cons_append, List.cons.injEq] at h
          exact absurd h.1.symm hy'.1
      · by_cases hd : y = ' '
        · rw [if_neg hc, if_pos hd] at h
          simp only [List.cons_append, List.cons.injEq] at h
          exact absurd h.1 hx'.1
        · rw [if_neg hc, if_neg hd] at h
          simp only [List.cons_append, List.nil_append, List.cons.injEq] at h
          obtain ⟨h1, h2⟩ := ih ys hx'.2 hy'.2 h.2
          exact ⟨by rw [h.1, h1], h2⟩

/-- **C55_partial**: if no argument contains a backslash, the command line shown determines the
command. -/
theorem C55_partial (a b : List Str) (ha : ∀ x ∈ a, '\\' ∉ x) (hb : ∀ x ∈ b, '\\' ∉ x)
    (h : formatCmd a = formatCmd b) : a = b := by
  have hnl : ∀ (y : Str) (t u : Str),
      (['\n'] : Str) ≠ (y.flatMap fun c => if c = ' ' then ['\\', ' '] else [c]) ++ [' '] ++ t ++ u := by
    intro y t u he
    cases y with
    | nil => simp at he
    | cons c cs =>
      rw [List.flatMap_cons] at he
      by_cases hc : c = ' '
      · simp [hc] at he
      · simp [hc] at he
  induction a generalizing b with
  | nil =>
    cases b with
    | nil => rfl
    | cons y ys =>
      exfalso
      unfold formatCmd at h
      rw [List.flatMap_cons] at h
      exact hnl y _ _ h
  | cons x xs ih =>
    cases b with
    | nil =>
      exfalso
      unfold formatCmd at h
      rw [List.flatMap_cons] at h
      exact hnl x _ _ h.symm
    | cons y ys =>
      unfold formatCmd at h
      rw [List.flatMap_cons, List.flatMap_cons] at h
      simp only [List.append_assoc, List.cons_append, List.nil_append] at h
      obtain ⟨h1, h2⟩ := esc_inj x y _ _ (ha x (by simp)) (hb y (by simp)) h
      rw [h1, ih ys (fun z hz => ha z (by simp [hz])) (fun z hz => hb z (by simp [hz])) h2]

/-- **C55** is false: backslashes are not escaped, so two different commands are shown alike. -/
theorem C55_counterexample : formatCmd [['a', '\\'], ['b']] = formatCmd [['a', ' ', 'b']] ∧
    ([['a', '\\'], ['b']] : List Str) ≠ [['a', ' ', 'b']] := by decide +kernel

end Joque
