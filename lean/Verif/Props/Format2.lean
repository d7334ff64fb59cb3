import Verif.Props.Format

/-!
# Total run time (C41) and columns (C57)
-/

namespace Joque

/-! ## C41 -/

theorem ceilSec_spec (d : Int) :
    d ≤ ceilSec d * ticksPerSec ∧ ∀ n : Int, d ≤ n * ticksPerSec → ceilSec d ≤ n := by
  unfold ceilSec
  simp only [ticksPerSec]
  have h1 := Int.mul_tdiv_add_tmod d 1000000000
  have h2 : d.tmod 1000000000 < 1000000000 := Int.tmod_lt_of_pos d (by decide)
  have h3 : -1000000000 < d.tmod 1000000000 := by
    rcases Int.le_total 0 d with h | h
    · have := Int.tmod_nonneg 1000000000 h; omega
    · have := Int.lt_tmod_of_pos d (b := 1000000000) (by decide)
      exact this
  have key : ∀ q m : Int, 1000000000 * q + m = d → m < 1000000000 → -1000000000 < m →
      d ≤ (if q * 1000000000 < d then q + 1 else q) * 1000000000 ∧
      ∀ n : Int, d ≤ n * 1000000000 → (if q * 1000000000 < d then q + 1 else q) ≤ n := by
    intro q m h1 h2 h3
    split
    · exact ⟨by omega, fun n hn => by omega⟩
    · exact ⟨by omega, fun n hn => by omega⟩
  exact key _ _ h1 h2 h3

theorem minStart_spec (clock : Nat → Int) (m : RunRecord) (rs : List RunRecord) :
    minStart clock m rs ∈ m :: rs ∧
    ∀ r ∈ m :: rs, clock (minStart clock m rs).start ≤ clock r.start := by
  induction rs generalizing m with
  | nil => simp [minStart]
  | cons r rs ih =>
    unfold minStart
    split
    · obtain ⟨h1, h2⟩ := ih r
      refine ⟨List.mem_cons_of_mem _ h1, ?_⟩
      intro x hx
      rcases List.mem_cons.1 hx with rfl | hx
      · have := h2 r (by simp); omega
      · exact h2 x hx
    · obtain ⟨h1, h2⟩ := ih m
      refine ⟨?_, ?_⟩
      · rcases List.mem_cons.1 h1 with h | h
        · rw [h]; simp
        · simp [h]
      · intro x hx
        rcases List.mem_cons.1 hx with rfl | hx
        · exact h2 x (by simp)
        · rcases List.mem_cons.1 hx with rfl | hx
          · have := h2 m (by simp); omega
          · exact h2 x (by simp [hx])

theorem maxEnd_spec (clock : Nat → Int) (m : RunRecord) (rs : List RunRecord) :
    maxEnd clock m rs ∈ m :: rs ∧
    ∀ r ∈ m :: rs, clock r.end ≤ clock (maxEnd clock m rs).end := by
  induction rs generalizing m with
  | nil => simp [maxEnd]
  | cons r rs ih =>
    unfold maxEnd
    split
    · obtain ⟨h1, h2⟩ := ih r
      refine ⟨List.mem_cons_of_mem _ h1, ?_⟩
      intro x hx
      rcases List.mem_cons.1 hx with rfl | hx
      · have := h2 r (by simp); omega
      · exact h2 x hx
    · obtain ⟨h1, h2⟩ := ih m
      refine ⟨?_, ?_⟩
      · rcases List.mem_cons.1 h1 with h | h
        · rw [h]; simp
        · simp [h]
      · intro x hx
        rcases List.mem_cons.1 hx with rfl | hx
        · exact h2 x (by simp)
        · rcases List.mem_cons.1 hx with rfl | hx
          · have := h2 m (by simp); omega
          · exact h2 x (by simp [hx])

/-- **C41**.  If there is a record, the total run time is the least number of whole seconds which is no
less than any end minus any start. -/
theorem C41_least (clock : Nat → Int) (er : ExecRecord) (hne : er.runs ≠ []) :
    ∃ n, runtimeSum clock er = some n ∧
      (∀ r ∈ er.runs, ∀ r' ∈ er.runs, clock r.end - clock r'.start ≤ n * 1000000000) ∧
      ∀ k : Int, (∀ r ∈ er.runs, ∀ r' ∈ er.runs, clock r.end - clock r'.start ≤ k * 1000000000) →
        n ≤ k := by
  unfold runtimeSum
  cases hr : er.runs with
  | nil => exact absurd hr hne
  | cons m rs =>
    obtain ⟨a1, a2⟩ := minStart_spec clock m rs
    obtain ⟨b1, b2⟩ := maxEnd_spec clock m rs
    obtain ⟨c1, c2⟩ := ceilSec_spec (clock (maxEnd clock m rs).end - clock (minStart clock m rs).start)
    refine ⟨_, rfl, ?_, ?_⟩
    · intro r h r' h'
      have := a2 r' h'; have := b2 r h
      simp only [ticksPerSec] at c1; omega
    · intro k hk
      exact c2 k (hk _ b1 _ a1)

/-- **C41** (partial).  It is defined, not negative and no less than the duration of any task, for what
a finished execution of at least one task returns. -/
theorem C41_partial (C : Cfg) (hwf : C.dag.WF) (ms : List Move) (clock : Nat → Int)
    (hclock : ∀ i j, i ≤ j → clock i ≤ clock j)
    (hfin : (exec C ms).phase = .finished) (hne : C.dag.nodes ≠ []) :
    ∃ n, runtimeSum clock (exec C ms).erec = some n ∧ 0 ≤ n ∧
      ∀ r ∈ (exec C ms).erec.runs, clock r.end - clock r.start ≤ n * 1000000000 := by
  have hp := (C02_one_record C hwf ms hfin).1
  have hruns : (exec C ms).erec.runs ≠ [] := by
    intro h
    have := hp.length_eq
    rw [h] at this
    exact hne (List.length_eq_zero_iff.1 this.symm)
  obtain ⟨n, h1, h2, _⟩ := C41_least clock _ hruns
  refine ⟨n, h1, ?_, fun r hr => h2 r hr r hr⟩
  obtain ⟨r, hr⟩ := List.exists_mem_of_ne_nil _ hruns
  have hT := tinv_exec hwf ms
  have ht := (C49_times C hwf ms clock hclock r (by rw [hT.recs]; exact hr)).1
  have := h2 r hr r hr
  omega

example : runtimeSum (fun i => i * 400000000) (exec (Ex.cfg 2) Ex.done2).erec = some 13 ∧
    (Ex.cfg 2).dag.nodes ≠ [] := by decide +kernel

/-- the dag without tasks -/
def emptyDag : Dag := { (Ex.cfg 0).dag with nodes := [], edges := [] }

/-- an execution without tasks -/
def emptyCfg : Cfg := { Ex.cfg 0 with dag := emptyDag }

/-- **C41** is false: an execution without tasks finishes and reports to the visitor a record for
which the total run time, and with it the summary line, is undefined. -/
theorem C41_counterexample :
    emptyCfg.dag.WF ∧ ∃ ms, (exec emptyCfg ms).phase = .finished ∧
      .afterExecution (exec emptyCfg ms).erec ∈ (exec emptyCfg ms).trace ∧
      ∀ clock hms, runtimeSum clock (exec emptyCfg ms).erec = none ∧
        formatExecEnd hms clock (exec emptyCfg ms).erec = none := by
  refine ⟨⟨List.nodup_nil, fun e he => absurd he (List.not_mem_nil)⟩, ?_⟩
  refine ⟨[.ctl, .ctl, .ctl], by decide +kernel, by decide +kernel, ?_⟩
  intro clock hms
  have : (exec emptyCfg [.ctl, .ctl, .ctl]).erec.runs = [] := by decide +kernel
  have h : runtimeSum clock (exec emptyCfg [.ctl, .ctl, .ctl]).erec = none := by
    rw [runtimeSum, this]
  exact ⟨h, by rw [formatExecEnd, h]; rfl⟩

/-! ## C57 -/

theorem showNat_pad (n : Nat) : padLeft (showNat n).length '0' (showNat n) = showNat n := by
  simp [padLeft]

/-- what precedes the text of a line with a total -/
theorem vis_line (hms : Str) (hh : Plain hms) (count total : Nat) (ht : total ≠ 0) (status text : Str)
    (dur : Option Str) (hs : Plain status)
    (hc : ∀ r, visAux false ((statColor status).getD cNONE ++ r) = visAux false r) :
    ∃ line, formatLine hms count (some total) status text dur = some line ∧
      visible line = hms ++ [' ', ' '] ++ padLeft (showNat total).length '0' (showNat count) ++ ['/']
        ++ showNat total ++ [' ', ' '] ++ padLeft 4 ' ' status ++ [' ', ' ']
        ++ visAux false (text ++ [' ', ' '] ++ (match dur with
          | some d => fmtDur d
          | none => [])) := by
  have h2 : Plain [' ', ' '] := by unfold Plain; decide
  have h1 : Plain ['/'] := by unfold Plain; decide
  have hw : counterWidth total = some (showNat total).length := if_neg ht
  refine ⟨_, by unfold formatLine lineCounter fmtCounter; simp only [hw]; rfl, ?_⟩
  show visible (_ ++ _ ++ (_ ++ _ ++ _ ++ padLeft (showNat total).length '0' (showNat total) ++ _) ++ _ ++ _ ++ _ ++ _ ++ _ ++ _) = _
  rw [showNat_pad]
  unfold visible fmtTime fmtStatus
  simp only [List.append_assoc]
  rw [vis_gray, vis_plain _ _ hh, vis_reset, vis_plain _ _ h2,
    vis_plain _ _ (plain_padLeft (by decide) (plain_showNat _)), vis_plain _ _ h1, vis_gray,
    vis_plain _ _ (plain_showNat _), vis_reset, vis_plain _ _ h2, hc,
    vis_plain _ _ (plain_padLeft (by decide) hs), vis_reset, vis_plain _ _ h2]
  cases dur <;> rfl

theorem vis_fmtText (text : Str) (h : Plain text) :
    ∃ t, fmtText 61 text = some t ∧
      ∀ r, visAux false (t ++ r) = padRight 60 (text.take 60) ++ visAux false r := by
  have hl : (padRight 60 (text.take 60)).length = 60 :=
    length_padRight (by rw [List.length_take]; omega)
  refine ⟨_, slashLoop_spec 61 [] (padRight 60 (text.take 60)) (by rw [hl]; decide), ?_⟩
  intro r
  exact vis_slashed _ r (plain_padRight (plain_take h))

/-- `line` shows `text` from column `col` on. -/
def ShowsAt (col : Nat) (text line : Str) : Prop :=
  ∃ a b, visible line = a ++ text ++ b ∧ a.length = col

theorem shows_line (hms : Str) (hh : Plain hms) (h6 : hms.length = 6) (count total : Nat)
    (hct : count ≤ total) (hpos : total ≠ 0) (status name : Str) (hn : Plain name)
    (dur : Option Str) (hs : Plain status) (hs4 : status.length ≤ 4)
    (hc : ∀ r, visAux false ((statColor status).getD cNONE ++ r) = visAux false r) :
    ∃ line, ((fmtText 61 name).bind fun t => formatLine hms count (some total) status t dur) = some line ∧
      ShowsAt (17 + 2 * (showNat total).length) (padRight 60 (name.take 60)) line := by
  obtain ⟨t, ht1, ht2⟩ := vis_fmtText name hn
  obtain ⟨line, hl1, hl2⟩ := vis_line hms hh count total hpos status t dur hs hc
  refine ⟨line, by rw [ht1]; exact hl1, ?_⟩
  rw [List.append_assoc t, ht2] at hl2
  refine ⟨_, _, by rw [hl2, ← List.append_assoc], ?_⟩
  have := length_padLeft (c := '0') (showNat_length_mono hct)
  have h4 := length_padLeft (c := ' ') hs4
  simp only [List.length_append, List.length_cons, List.length_nil, this, h4, h6]
  omega

theorem runs_lt_total (C : Cfg) (hwf : C.dag.WF) (ms : List Move) (er : ExecRecord)
    (he : (∃ n, .beforeRun er n ∈ (exec C ms).trace) ∨ (∃ r n, .afterRun er r n ∈ (exec C ms).trace)) :
    er.runs.length + 1 ≤ er.totalCount := by
  obtain ⟨hI, hT⟩ := both_exec hwf ms
  obtain ⟨hnd, hin⟩ := C02_no_double_record C hwf ms
  rcases he with ⟨n, he⟩ | ⟨r, n, he⟩
  · obtain ⟨pre, post, htr⟩ := List.append_of_mem he
    have hg := (hT.always pre _ post htr).2
    obtain ⟨hn, -, hok, -⟩ := hg
    rw [hok.total, hok.runs]
    have hnr : ¬ Recorded pre n := by
      intro h
      have := (rec_split hT htr h).1
      simp [life, tagOf] at this
    rw [htr, recsOf_append] at hnd hin
    rw [List.map_append, List.nodup_append] at hnd
    have hnd' : (n :: (recsOf pre).map RunRecord.node).Nodup := by
      refine List.nodup_cons.2 ⟨?_, hnd.1⟩
      intro h
      obtain ⟨r, hr, hrn⟩ := List.mem_map.1 h
      exact hnr ⟨r, hr, hrn⟩
    have hsub : n :: (recsOf pre).map RunRecord.node ⊆ C.dag.nodes := by
      intro x hx
      rcases List.mem_cons.1 hx with rfl | hx
      · exact hn
      · obtain ⟨r, hr, rfl⟩ := List.mem_map.1 hx
        exact hin r (List.mem_append_left _ hr)
    have := (List.subperm_of_subset hnd' hsub).length_le
    simpa using this
  · obtain ⟨pre, post, htr⟩ := List.append_of_mem he
    obtain ⟨hok, -⟩ := (hT.always pre _ post htr).2
    rw [hok.total, hok.runs]
    have hsub : (recsOf (exec C ms).trace).map RunRecord.node ⊆ C.dag.nodes := by
      intro x hx
      obtain ⟨r, hr, rfl⟩ := List.mem_map.1 hx
      exact hin r hr
    have := (List.subperm_of_subset hnd hsub).length_le
    rw [List.length_map, htr, recsOf_append, List.length_append] at this
    have h1 : 1 ≤ (recsOf (Event.afterRun er r n :: post)).length := by
      simp [recsOf]
    omega

/-- **C57** (partial).  In every execution the names in the start and end lines of tasks all begin in the
same column, which depends on the number of tasks only: 17 plus twice the width of that number.
(`hms` is the time of day; names must not contain escape sequences.) -/
theorem C57_partial (C : Cfg) (hwf : C.dag.WF) (ms : List Move) (er : ExecRecord)
    (he : (∃ n, .beforeRun er n ∈ (exec C ms).trace) ∨ (∃ r n, .afterRun er r n ∈ (exec C ms).trace))
    (hms : Str) (hh : Plain hms) (h6 : hms.length = 6) :
    (∀ name, Plain name → ∃ line, formatStatus hms er name = some line ∧
      ShowsAt (17 + 2 * (showNat C.dag.nodes.length).length) (padRight 60 (name.take 60)) line) ∧
    (∀ shown r, Plain r.name → ∃ line, formatRunEnd hms shown er r = some line ∧
      ShowsAt (17 + 2 * (showNat C.dag.nodes.length).length) (padRight 60 (r.name.take 60)) line) := by
  have hlt := runs_lt_total C hwf ms er he
  have htot : er.totalCount = C.dag.nodes.length := by
    obtain ⟨hI, hT⟩ := both_exec hwf ms
    rcases he with ⟨n, he⟩ | ⟨r, n, he⟩
    · obtain ⟨pre, post, htr⟩ := List.append_of_mem he
      exact (hT.always pre _ post htr).2.2.2.1.total
    · obtain ⟨pre, post, htr⟩ := List.append_of_mem he
      exact (hT.always pre _ post htr).2.1.total
  rw [← htot]
  constructor
  · intro name hn
    exact shows_line hms hh h6 _ _ hlt (by omega) ['S', 'T', 'R', 'T'] name hn none
      (by unfold Plain; decide) (by decide) (fun r => vis_start r)
  · intro shown r hn
    exact shows_line hms hh h6 _ _ hlt (by omega) r.status.name r.name hn _ (plain_name _)
      (by cases r.status <;> decide) (by
        intro x
        cases r.status
        · exact vis_ok x
        · exact vis_skip x
        · exact vis_depf x
        · exact vis_fail x)

/-- The summary always begins four columns further left: the colour code passed in place of a status
is invisible. -/
theorem C57_summary_off (clock : Nat → Int) (er : ExecRecord) (hne : er.runs ≠ [])
    (hpos : er.totalCount ≠ 0) (hms : Str) (hh : Plain hms) (h6 : hms.length = 6) :
    ∃ line, formatExecEnd hms clock er = some line ∧
      ShowsAt (13 + 2 * (showNat er.totalCount).length) "run: ".toList line := by
  obtain ⟨t, ht, -⟩ := C41_least clock er hne
  have h2 : Plain [' ', ' '] := by unfold Plain; decide
  have hr : Plain ['r', 'u', 'n', ':', ' '] := by unfold Plain; decide
  have hw : counterWidth er.totalCount = some (showNat er.totalCount).length := if_neg hpos
  have hc : statColor cEND = none := by decide
  have hp : padLeft 4 ' ' cEND = cEND := by decide
  have h1 : "run: ".toList = ['r', 'u', 'n', ':', ' '] := by decide +kernel
  refine ⟨_, by rw [formatExecEnd, ht, Option.bind_some, formatLine, lineCounter, fmtCounter, hw]; rfl, ?_⟩
  rw [hc, h1]
  show ShowsAt _ _ (_ ++ _ ++ (_ ++ padLeft (showNat er.totalCount).length '0' (showNat er.totalCount)) ++ _ ++ _ ++ _ ++ _ ++ _ ++ _)
  rw [showNat_pad]
  unfold ShowsAt visible fmtTime fmtStatus endText
  rw [hp]
  simp only [List.append_assoc, Option.getD_none, cNONE, List.nil_append]
  rw [vis_gray, vis_plain _ _ hh, vis_reset, vis_plain _ _ h2,
    vis_plain _ _ (plain_replicate (by decide)),
    vis_plain _ _ (plain_showNat _), vis_plain _ _ h2, vis_end, vis_reset, vis_plain _ _ h2,
    vis_plain _ _ hr]
  refine ⟨hms ++ [' ', ' '] ++ List.replicate ((showNat er.totalCount).length + 1) ' '
    ++ showNat er.totalCount ++ [' ', ' '] ++ [' ', ' '], ?b, ?_, ?_⟩
  case b =>
    exact visAux false (padRight 9 (showNat (er.stats.ok + er.stats.fail)) ++
      (endEntry .ok er.stats.ok ++ (endEntry .skip er.stats.skip ++ (endEntry .depf er.stats.depf ++
        (endEntry .fail er.stats.fail ++ ([' ', ' '] ++ fmtDur (showInt t ++ ['s'])))))))
  · simp only [List.append_assoc]
  · simp only [List.length_append, List.length_cons, List.length_nil, List.length_replicate, h6]
    omega

/-- the seconds since midnight, say -/
def noonHms : Str := ['1', '2', '0', '0', '0', '0']

theorem ShowsAt.take {c : Nat} {t l : Str} (h : ShowsAt c t l) :
    ((visible l).drop c).take t.length = t := by
  obtain ⟨a, b, h, rfl⟩ := h
  rw [h, List.append_assoc, List.drop_left', List.take_left'] <;> rfl

/-- **C57** is false: the start line of task 1 and the summary of the same execution. -/
theorem C57_counterexample :
    ∃ er0 er1, .beforeRun er0 1 ∈ (exec (Ex.cfg 2) Ex.done2).trace ∧
      .afterExecution er1 ∈ (exec (Ex.cfg 2) Ex.done2).trace ∧
    ∃ line0 line1, formatStatus noonHms er0 ((Ex.cfg 2).dag.name 1) = some line0 ∧
      formatExecEnd noonHms (fun i => i) er1 = some line1 ∧
      ShowsAt 19 (padRight 60 ['x']) line0 ∧ ShowsAt 15 "run: ".toList line1 ∧
      ¬ ShowsAt 19 "run: ".toList line1 := by
  have e0 : .beforeRun { ExecRecord.init with totalCount := 5 } 1 ∈ (exec (Ex.cfg 2) Ex.done2).trace := by
    decide +kernel
  have e1 : .afterExecution (exec (Ex.cfg 2) Ex.done2).erec ∈ (exec (Ex.cfg 2) Ex.done2).trace := by
    decide +kernel
  have hh : Plain noonHms := by unfold Plain; decide
  have hl : (Ex.cfg 2).dag.nodes.length = 5 := by decide
  obtain ⟨line0, h0, s0⟩ := (C57_partial (Ex.cfg 2) (Ex.wf 2) Ex.done2 _ (.inl ⟨1, e0⟩) noonHms hh
    (by decide)).1 ['x'] (by unfold Plain; decide)
  obtain ⟨line1, h1, s1⟩ := C57_summary_off (fun i => i) (exec (Ex.cfg 2) Ex.done2).erec
    (by decide +kernel) (by decide +kernel) noonHms hh (by decide)
  refine ⟨_, _, e0, e1, line0, line1, h0, h1, ?_, ?_, ?_⟩
  · rw [hl] at s0; exact s0
  · have : (exec (Ex.cfg 2) Ex.done2).erec.totalCount = 5 := by decide +kernel
    rw [this] at s1; exact s1
  · intro h
    have := h.take
    have hv : (formatExecEnd noonHms (fun i => i) (exec (Ex.cfg 2) Ex.done2).erec).map
        (fun l => ((visible l).drop 19).take "run: ".toList.length) ≠ some "run: ".toList := by
      decide +kernel
    rw [h1] at hv
    exact hv (congrArg some this)

end Joque
