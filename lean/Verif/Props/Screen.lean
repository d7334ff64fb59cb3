import Verif.Proof.Screen
import Verif.Props.PrintVisitor
import Verif.Props.Format2

/-!
# What the user sees

C68 the text of every line, C69 progress lines leave nothing behind.
-/

namespace Joque

/-! ## C68 -/

theorem dis_status_color (st : Status) : Displays ((statColor st.name).getD cNONE) [] := by
  cases st
  · exact dis_ok
  · exact dis_skip
  · exact dis_depf
  · exact dis_fail

theorem line_status {hms : Str} (hh : Printable hms) {er : ExecRecord} (ht : er.totalCount ≠ 0)
    {name : Str} (hn : Printable name) :
    ∃ line, formatStatus hms er name = some line ∧
      Displays line (taskLine hms (er.runs.length + 1) er.totalCount "STRT".toList name none) := by
  have h4 : "STRT".toList = ['S', 'T', 'R', 'T'] := by decide +kernel
  rw [h4]
  exact dis_line hh ht hn (by intro d h; cases h) (by unfold Printable; decide) dis_start

theorem line_runEnd {hms : Str} (hh : Printable hms) {er : ExecRecord} (ht : er.totalCount ≠ 0)
    {r : RunRecord} (hn : Printable r.name) {shown : RunRecord → Str} (hd : Printable (shown r)) :
    ∃ line, formatRunEnd hms shown er r = some line ∧
      Displays line (taskLine hms (er.runs.length + 1) er.totalCount r.status.name r.name
        (if r.status = .ok ∨ r.status = .fail then some (shown r) else none)) := by
  refine dis_line hh ht hn ?_ (printable_name _) (dis_status_color _)
  intro d h
  split at h
  · injection h with h; rw [← h]; exact hd
  · cases h

/-- The summary line: time, number of tasks, (nothing in place of a status,) number of tasks run,
number of tasks of each status, seconds. -/
def summaryLine (hms : Str) (total : Nat) (st : Status → Nat) (secs : Int) : Str :=
  hms ++ [' ', ' '] ++ List.replicate ((digits total).length + 1) ' ' ++ digits total
    ++ [' ', ' '] ++ [' ', ' ']
    ++ (['r', 'u', 'n', ':', ' '] ++ colLeft 9 (digits (st .ok + st .fail))
      ++ ([' ', ' ', 'O', 'K', ':', ' '] ++ colLeft 5 (digits (st .ok)))
      ++ ([' ', ' ', 'S', 'K', 'I', 'P', ':', ' '] ++ colLeft 5 (digits (st .skip)))
      ++ ([' ', ' ', 'D', 'E', 'P', 'F', ':', ' '] ++ colLeft 5 (digits (st .depf)))
      ++ ([' ', ' ', 'F', 'A', 'I', 'L', ':', ' '] ++ colLeft 5 (digits (st .fail))))
    ++ [' ', ' '] ++ ([' ', ' '] ++ colRight 8 ' ' (showInt secs ++ ['s']))

theorem dis_endEntry (st : Status) (n : Nat) :
    Displays (endEntry st n) ([' ', ' '] ++ st.name ++ [':', ' '] ++ colLeft 5 (digits n)) := by
  have h2 : Displays [' ', ' '] [' ', ' '] := .self (by unfold Printable; decide)
  have h3 : Displays [':', ' '] [':', ' '] := .self (by unfold Printable; decide)
  have hn : Displays st.name st.name := .self (printable_name st)
  have hd : Displays (padRight 5 (showNat n)) (padRight 5 (showNat n)) :=
    .self (printable_padRight (printable_showNat n))
  have h0 : Displays [] [] := .self (by intro c hc; cases hc)
  unfold endEntry
  by_cases hp : 0 < n
  · rw [if_pos hp, if_pos hp]
    have := (((((h2.append h0).append hn).append h3).append (dis_status_color st)).append hd).append
      dis_reset
    simpa [cNONE, colLeft, padRight, digits, showNat] using this
  · rw [if_neg hp, if_neg hp]
    have := (((((h2.append dis_gray).append hn).append h3).append dis_gray).append hd).append
      dis_reset
    simpa [cNONE, colLeft, padRight, digits, showNat] using this

theorem line_execEnd {hms : Str} (hh : Printable hms) {er : ExecRecord} (ht : er.totalCount ≠ 0)
    {clock : Nat → Int} {t : Int} (hr : runtimeSum clock er = some t) :
    ∃ line, formatExecEnd hms clock er = some line ∧
      Displays line (summaryLine hms er.totalCount er.stats.get t) := by
  have h2 : Displays [' ', ' '] [' ', ' '] := .self (by unfold Printable; decide)
  have hr5 : Displays ['r', 'u', 'n', ':', ' '] ['r', 'u', 'n', ':', ' '] :=
    .self (by unfold Printable; decide)
  have hs : Printable ['s'] := by unfold Printable; decide
  have hw : counterWidth er.totalCount = some (showNat er.totalCount).length := if_neg ht
  have hc : statColor cEND = none := by decide
  have hp : padLeft 4 ' ' cEND = cEND := by decide
  have htot : padLeft (showNat er.totalCount).length '0' (showNat er.totalCount) =
    showNat er.totalCount := by simp [padLeft]
  refine ⟨_, by rw [formatExecEnd, hr, Option.bind_some, formatLine, lineCounter, fmtCounter, hw]; rfl, ?_⟩
  rw [hc]
  show Displays (_ ++ _ ++ (_ ++ padLeft (showNat er.totalCount).length '0' (showNat er.totalCount)) ++ _ ++ _ ++ _ ++ _ ++ _ ++ _) _
  have key := ((((((((dis_gray.append (.self hh)).append dis_reset).append h2).append
    ((Displays.self (printable_replicate (n := (showNat er.totalCount).length + 1) (c := ' ')
      (by decide))).append (.self (printable_showNat er.totalCount)))).append h2).append
      (dis_end.append dis_reset)).append h2).append
      (((((hr5.append (.self (printable_padRight (w := 9)
        (printable_showNat (er.stats.ok + er.stats.fail))))).append
        (dis_endEntry .ok er.stats.ok)).append (dis_endEntry .skip er.stats.skip)).append
        (dis_endEntry .depf er.stats.depf)).append (dis_endEntry .fail er.stats.fail))).append h2
      |>.append (dis_fmtDur (printable_append (printable_showInt t) hs))
  have hst : fmtStatus cEND ((none : Option Str).getD cNONE) = cEND ++ cRESET := by
    rw [fmtStatus, hp]; rfl
  rw [htot, hst]
  simpa [fmtTime,  summaryLine, endText, colRight, colLeft, padLeft, padRight,
    digits, showNat, Status.name, Stats.get, List.append_assoc] using key

/-- **C68**, start lines.  The line printed by `before_run` shows the time, the number of tasks
completed so far plus one, the number of tasks, STRT, and the name of the task cut or padded to 60
characters. -/
theorem C68_start (C : Cfg) (hwf : C.dag.WF) (ms : List Move) (pre post : List Event)
    (er : ExecRecord) (n : Node) (htr : (exec C ms).trace = pre ++ .beforeRun er n :: post)
    (hms : Str) (hh : Printable hms) (hn : Printable (C.dag.name n)) :
    ∃ line, formatStatus hms er (C.dag.name n) = some line ∧
      Displays line (taskLine hms ((recsOf pre).length + 1) C.dag.nodes.length "STRT".toList
        (C.dag.name n) none) := by
  have hok := ((both_exec hwf ms).2.always pre _ post htr).2.2.2.1
  have hlt := runs_lt_total C hwf ms er (.inl ⟨n, by rw [htr]; simp⟩)
  rw [← hok.total, ← hok.runs]
  exact line_status hh (by omega) hn

/-- **C68**, end lines.  They are numbered: the k-th completed task's line shows the time, k, the
number of tasks, the status of the task, its name cut or padded to 60 characters, and the duration iff
the job was run. -/
theorem C68_end (C : Cfg) (hwf : C.dag.WF) (ms : List Move) (pre post : List Event)
    (er : ExecRecord) (r : RunRecord) (n : Node)
    (htr : (exec C ms).trace = pre ++ .afterRun er r n :: post)
    (hms : Str) (hh : Printable hms) (hn : Printable (C.dag.name r.node))
    (shown : RunRecord → Str) (hd : Printable (shown r)) :
    ∃ line dur, formatRunEnd hms shown er r = some line ∧
      Displays line (taskLine hms ((recsOf pre).length + 1) C.dag.nodes.length r.status.name
        (C.dag.name r.node) dur) ∧
      (JobBegan (exec C ms).trace r.node → dur = some (shown r)) ∧
      (¬ JobBegan (exec C ms).trace r.node → dur = none) := by
  obtain ⟨hI, hT⟩ := both_exec hwf ms
  have hok := (hT.always pre _ post htr).2.1
  have hlt := runs_lt_total C hwf ms er (.inr ⟨r, n, by rw [htr]; simp⟩)
  have hr : r ∈ (exec C ms).erec.runs := by
    rw [← hT.recs]; exact mem_recsOf.2 ⟨er, n, by rw [htr]; simp⟩
  have hname := (hI.recs r hr).name
  rw [← hok.total, ← hok.runs, ← hname]
  rw [← hname] at hn
  obtain ⟨line, h1, h2⟩ := line_runEnd hh (er := er) (by omega) hn hd
  have hiff := (began_of_status hT hr).1
  exact ⟨line, _, h1, h2, fun h => if_pos (hiff.1 h), fun h => if_neg (fun h' => h (hiff.2 h'))⟩

/-- **C68**, summary.  The last line shows the time, the number of tasks, the number of jobs run, the
number of tasks of each status, and the total run time. -/
theorem C68_summary (C : Cfg) (hwf : C.dag.WF) (ms : List Move) (er : ExecRecord)
    (he : .afterExecution er ∈ (exec C ms).trace) (hne : C.dag.nodes ≠ [])
    (hms : Str) (hh : Printable hms) (clock : Nat → Int) :
    ∃ line t, formatExecEnd hms clock er = some line ∧ runtimeSum clock er = some t ∧
      Displays line (summaryLine hms C.dag.nodes.length
        (fun st => (recsOf (exec C ms).trace).countP (fun r => r.status = st)) t) := by
  obtain ⟨hI, hT⟩ := both_exec hwf ms
  obtain ⟨pre, post, htr⟩ := List.append_of_mem he
  have hg := hT.always pre _ post htr
  have hok := hg.2.1
  have hpost : post = [] := by
    cases post with
    | nil => rfl
    | cons e post =>
      have := (hT.always (pre ++ [.afterExecution er]) e post (by rw [htr]; simp)).1
      exact absurd (by simp) (this er)
  subst hpost
  have hrec : recsOf (exec C ms).trace = er.runs := by
    rw [htr, recsOf_append, hok.runs]; simp [recsOf]
  have hruns : er.runs ≠ [] := by
    obtain ⟨n, hn⟩ := List.exists_mem_of_ne_nil _ hne
    obtain ⟨r, hr, _⟩ := hg.2.2 n hn
    rw [hok.runs]
    exact List.ne_nil_of_mem hr
  obtain ⟨t, ht, -⟩ := C41_least clock er hruns
  have hpos : er.totalCount ≠ 0 := by
    rw [hok.total]
    exact fun h => hne (List.length_eq_zero_iff.1 h)
  obtain ⟨line, h1, h2⟩ := line_execEnd hh hpos ht
  refine ⟨line, t, h1, ht, ?_⟩
  rw [← hok.total, hrec]
  have : er.stats.get = fun st => er.runs.countP (fun r => r.status = st) := funext hok.stats
  rw [this] at h2
  exact h2

/-- in the example: the fifth and last end line, and the summary -/
example : ((exec (Ex.cfg 2) Ex.done2).trace.filterMap fun e => match e with
      | .afterRun er r _ => (formatRunEnd noonHms (fun _ => "7ms".toList) er r).map visible
      | .afterExecution er => (formatExecEnd noonHms (fun i => i) er).map visible
      | _ => none).drop 4 =
    ["120000  5/5  DEPF  xxx                                                           ".toList,
     "120000    5    run: 3          OK: 2      SKIP: 1      DEPF: 1      FAIL: 1              1s".toList] := by
  decide +kernel

/-! ## C69 -/

theorem feed_write (d : List Str) : ∀ (v a l : Str), Printable v →
    (Term.mk d (a ++ l) a.length .text).feed v =
      ⟨d, a ++ v ++ l.drop v.length, a.length + v.length, .text⟩ := by
  intro v
  induction v with
  | nil => intro a l _; simp [Term.feed]
  | cons c v ih =>
    intro a l hv
    show ((Term.mk d (a ++ l) a.length .text).putc c).feed v = _
    rw [putc_text rfl (hv c (by simp))]
    have h1 : (a ++ l).take a.length = a := List.take_left' rfl
    have h2 : a.length - (a ++ l).length = 0 := by simp
    have h3 : (a ++ l).drop (a.length + 1) = l.drop 1 := by
      rw [← List.drop_drop, List.drop_left' rfl]
    simp only [h1, h2, h3, List.replicate_zero, List.append_nil]
    have := ih (a ++ [c]) (l.drop 1) (fun x hx => hv x (by simp [hx]))
    simp only [List.length_append, List.length_cons, List.length_nil, List.append_assoc,
      List.drop_drop] at this
    simp only [List.cons_append, List.nil_append] at this
    rw [Nat.zero_add] at this
    rw [this]
    simp only [List.append_assoc, List.cons_append, List.length_cons]
    have e1 : 1 + v.length = v.length + 1 := by omega
    have e2 : a.length + 1 + v.length = a.length + (v.length + 1) := by omega
    rw [e1, e2]

/-- a line at least as long as what was there covers it -/
theorem feed_cover {s v : Str} (h : Displays s v) (d : List Str) (l : Str) (hl : l.length ≤ v.length) :
    (Term.mk d l 0 .text).feed s = ⟨d, v, v.length, .text⟩ := by
  rw [h.2 _ rfl]
  have := feed_write d v [] l h.1
  simpa [List.drop_eq_nil_of_le hl] using this

theorem feed_carriage (d : List Str) (l : Str) (c : Nat) :
    (Term.mk d l c .text).feed carriage = ⟨d, l, 0, .text⟩ := rfl

theorem feed_newline (d : List Str) (l : Str) (c : Nat) :
    (Term.mk d l c .text).feed ['\n'] = ⟨d ++ [l], [], 0, .text⟩ := rfl

theorem length_taskLine {hms : Str} (h6 : hms.length = 6) {count total : Nat} (hct : count ≤ total)
    {status : Str} (hs : status.length ≤ 4) (name : Str) (dur : Option Str) :
    79 + 2 * (digits total).length ≤ (taskLine hms count total status name dur).length ∧
    (dur = none → (taskLine hms count total status name dur).length = 79 + 2 * (digits total).length) := by
  have h1 : (colRight (digits total).length '0' (digits count)).length = (digits total).length :=
    length_padLeft (showNat_length_mono hct)
  have h2 : (colRight 4 ' ' status).length = 4 := length_padLeft hs
  have h3 : (colLeft 60 (name.take 60)).length = 60 :=
    length_padRight (by rw [List.length_take]; omega)
  unfold taskLine
  simp only [List.length_append, h1, h2, h3, h6, List.length_cons, List.length_nil]
  cases dur with
  | none => simp; omega
  | some d => simp; omega

theorem length_summaryLine {hms : Str} (h6 : hms.length = 6) (total : Nat) (st : Status → Nat)
    (t : Int) : 79 + 2 * (digits total).length ≤ (summaryLine hms total st t).length := by
  have hl : ∀ w s, w ≤ (colLeft w s).length := by intro w s; simp [colLeft]; omega
  have hr : ∀ w c s, w ≤ (colRight w c s).length := by intro w c s; simp [colRight]; omega
  have h1 := hl 9 (digits (st .ok + st .fail))
  have h2 := hl 5 (digits (st .ok))
  have h3 := hl 5 (digits (st .skip))
  have h4 := hl 5 (digits (st .depf))
  have h5 := hl 5 (digits (st .fail))
  have h7 := hr 8 ' ' (showInt t ++ ['s'])
  unfold summaryLine
  simp only [List.length_append, List.length_cons, List.length_nil, List.length_replicate, h6] at *
  omega

/-- the output of a job, as long as it has no escape sequences, ends at the start of an empty line -/
theorem feed_noesc : ∀ (s : Str) (t : Term), t.mode = .text → '\x1b' ∉ s → (t.feed s).mode = .text := by
  intro s
  induction s with
  | nil => intro t h _; exact h
  | cons c s ih =>
    intro t hm h
    show ((t.putc c).feed s).mode = _
    refine ih _ ?_ (fun h' => h (List.mem_cons_of_mem _ h'))
    have hc : c ≠ '\x1b' := fun h' => h (by simp [h'])
    unfold Term.putc
    rw [hm]
    simp only [hc, if_false]
    split
    · rfl
    · split <;> rfl

theorem mem_formatNested {indent : Str} {cs : List Chunk} {c : Char} (h : c ∈ formatNested indent cs) :
    c ∈ indent ∨ c ∈ allText cs ∨ c = '\n' := by
  obtain ⟨ls, p, hs⟩ := splitsInto_exists (allText cs)
  rw [C39_lines indent cs ls p hs] at h
  rw [hs.eq]
  rcases List.mem_append.1 h with h | h
  · obtain ⟨l, hl, h⟩ := List.mem_flatMap.1 h
    rcases List.mem_append.1 h with h | h
    · rcases List.mem_append.1 h with h | h
      · exact .inl h
      · exact .inr (.inl (List.mem_append_left _ (List.mem_flatMap.2 ⟨l, hl, List.mem_append_left _ h⟩)))
    · exact .inr (.inr (by simpa using h))
  · split at h
    · cases h
    · rcases List.mem_append.1 h with h | h
      · rcases List.mem_append.1 h with h | h
        · exact .inl h
        · exact .inr (.inl (List.mem_append_right _ h))
      · exact .inr (.inr (by simpa using h))

theorem feed_nested (d : List Str) (cs : List Chunk) (h : '\x1b' ∉ allText cs) :
    ∃ d', (Term.mk d [] 0 .text).feed (formatNested (List.replicate 8 ' ') cs) = ⟨d', [], 0, .text⟩ := by
  obtain ⟨h1, h2⟩ := C39_end (List.replicate 8 ' ') cs
  by_cases hne : allText cs = []
  · rw [h1 hne]; exact ⟨d, rfl⟩
  · obtain ⟨t, ht⟩ := h2 hne
    have hno : '\x1b' ∉ t := by
      intro hm
      rcases mem_formatNested (indent := List.replicate 8 ' ') (cs := cs) (c := '\x1b')
        (by rw [ht]; exact List.mem_append_left _ hm) with h' | h' | h'
      · exact absurd (List.eq_of_mem_replicate h') (by decide)
      · exact h h'
      · exact absurd h' (by decide)
    rw [ht, feed_append]
    have hm := feed_noesc t ⟨d, [], 0, .text⟩ rfl hno
    generalize (Term.mk d [] 0 .text).feed t = u at hm ⊢
    obtain ⟨d', l', c', m'⟩ := u
    replace hm : m' = .text := hm
    subst hm
    exact ⟨_, feed_newline d' l' c'⟩

theorem stdoutOf_append {T : TextEnv} : ∀ (a b : List (Str × Item)),
    stdoutOf T (a ++ b) = (stdoutOf T a).bind fun x => (stdoutOf T b).map (x ++ ·) := by
  intro a
  induction a with
  | nil => intro b; simp [stdoutOf]
  | cons p a ih =>
    intro b
    obtain ⟨hms, i⟩ := p
    rw [List.cons_append, stdoutOf, stdoutOf, ih]
    cases i.stdout T hms with
    | none => rfl
    | some x =>
      cases stdoutOf T a with
      | none => rfl
      | some y =>
        cases stdoutOf T b with
        | none => rfl
        | some z => simp

def Item.isStatus : Item → Bool
  | .status _ _ => true
  | _ => false

/-- not a message on the other stream -/
def Item.onStdout : Item → Bool
  | .noJob _ | .cycle _ => false
  | _ => true

/-- What the line of the cursor should show: the progress line if that was printed last, else
nothing. -/
def cursorLine (name : Node → Str) (its : List (Str × Item)) : Str :=
  match (its.filter (fun p => p.2.onStdout)).getLast? with
  | some (hms, .status er n) =>
    taskLine hms (er.runs.length + 1) er.totalCount "STRT".toList (name n) none
  | _ => []

/-- what is known of an item printed by a visitor that is not verbose -/
def ItemOK (N : Nat) (T : TextEnv) : Item → Prop
  | .status er n => er.totalCount = N ∧ er.runs.length + 1 ≤ N ∧ Printable (T.name n)
  | .runEnd er r => er.totalCount = N ∧ er.runs.length + 1 ≤ N ∧ Printable r.name ∧
      Printable (T.shown r)
  | .nested r => '\x1b' ∉ allText r.output
  | .summary er => er.totalCount = N ∧ N ≠ 0 ∧ er.runs ≠ []
  | .noJob _ | .cycle _ => True
  | _ => False

theorem screen_inv {N : Nat} {T : TextEnv} (its : List (Str × Item))
    (hh : ∀ p ∈ its, Printable p.1 ∧ p.1.length = 6) (hok : ∀ p ∈ its, ItemOK N T p.2)
    (hnest : ∀ pre r post, its.map Prod.snd = pre ++ .nested r :: post →
      ∃ pre' er, pre = pre' ++ [.runEnd er r]) :
    ∃ s s' d, stdoutOf T its = some s ∧
      stdoutOf T (its.filter (fun p => !p.2.isStatus)) = some s' ∧
      Term.blank.feed s = ⟨d, cursorLine T.name its, 0, .text⟩ ∧
      Term.blank.feed s' = ⟨d, [], 0, .text⟩ ∧
      (cursorLine T.name its = [] ∨ (cursorLine T.name its).length = 79 + 2 * (digits N).length) := by
  induction its using List.reverseRecOn with
  | nil => exact ⟨[], [], [], rfl, rfl, rfl, rfl, .inl rfl⟩
  | append_singleton its p ih =>
    obtain ⟨s, s', d, h1, h2, h3, h4, h5⟩ := ih (fun p hp => hh p (by simp [hp]))
      (fun p hp => hok p (by simp [hp])) (by
        intro pre r post h
        exact hnest pre r (post ++ [p.2]) (by rw [List.map_append, h]; simp))
    obtain ⟨hms, i⟩ := p
    obtain ⟨hp, h6⟩ := hh (hms, i) (by simp)
    have hi := hok (hms, i) (by simp)
    replace hp : Printable hms := hp
    replace h6 : hms.length = 6 := h6
    have hle : (cursorLine T.name its).length ≤ 79 + 2 * (digits N).length := by
      rcases h5 with h | h
      · rw [h]; exact Nat.zero_le _
      · exact Nat.le_of_eq h
    have hone : ∀ x, i.stdout T hms = some x →
        stdoutOf T (its ++ [(hms, i)]) = some (s ++ x) ∧
        (i.isStatus = false →
          stdoutOf T ((its ++ [(hms, i)]).filter (fun p => !p.2.isStatus)) = some (s' ++ x)) := by
      intro x hx
      refine ⟨?_, fun hst => ?_⟩
      · rw [stdoutOf_append, h1]; simp [stdoutOf, hx]
      · rw [List.filter_append, stdoutOf_append, h2]
        simp [List.filter, hst, stdoutOf, hx]
    -- a whole line
    have hfull : ∀ line v pre, i.stdout T hms = some (pre ++ line ++ ['\n']) →
        (∀ d l, (Term.mk d l 0 .text).feed pre = ⟨d, l, 0, .text⟩) → Displays line v →
        79 + 2 * (digits N).length ≤ v.length → i.isStatus = false → i.onStdout = true →
        ∃ s s' d, stdoutOf T (its ++ [(hms, i)]) = some s ∧
          stdoutOf T ((its ++ [(hms, i)]).filter (fun p => !p.2.isStatus)) = some s' ∧
          Term.blank.feed s = ⟨d, cursorLine T.name (its ++ [(hms, i)]), 0, .text⟩ ∧
          Term.blank.feed s' = ⟨d, [], 0, .text⟩ ∧
          (cursorLine T.name (its ++ [(hms, i)]) = [] ∨
            (cursorLine T.name (its ++ [(hms, i)])).length = 79 + 2 * (digits N).length) := by
      intro line v pre hx hpre hd hv hst hso
      have hcl : cursorLine T.name (its ++ [(hms, i)]) = [] := by
        unfold cursorLine
        rw [List.filter_append]
        simp only [List.filter, hso, List.getLast?_append, List.getLast?_singleton,
          Option.some_or]
        cases i <;> first | rfl | cases hst
      obtain ⟨a1, a2⟩ := hone _ hx
      refine ⟨_, _, d ++ [v], a1, a2 hst, ?_, ?_, .inl hcl⟩
      · rw [hcl, feed_append, h3, List.append_assoc, feed_append, hpre, feed_append,
          feed_cover hd d _ (hle.trans hv), feed_newline]
      · rw [feed_append, h4, List.append_assoc, feed_append, hpre, feed_append,
          feed_cover hd d _ (Nat.zero_le _), feed_newline]
    cases i with
    | invalidated n log => exact hi.elim
    | invalidatedBy n m => exact hi.elim
    | runLog n log => exact hi.elim
    | noJob n =>
      have hcl : cursorLine T.name (its ++ [(hms, .noJob n)]) = cursorLine T.name its := by
        unfold cursorLine; rw [List.filter_append]; simp [List.filter, Item.onStdout]
      obtain ⟨a1, a2⟩ := hone [] rfl
      rw [hcl]
      exact ⟨_, _, d, a1, a2 rfl, by rw [List.append_nil]; exact h3,
        by rw [List.append_nil]; exact h4, h5⟩
    | cycle c =>
      have hcl : cursorLine T.name (its ++ [(hms, .cycle c)]) = cursorLine T.name its := by
        unfold cursorLine; rw [List.filter_append]; simp [List.filter, Item.onStdout]
      obtain ⟨a1, a2⟩ := hone [] rfl
      rw [hcl]
      exact ⟨_, _, d, a1, a2 rfl, by rw [List.append_nil]; exact h3,
        by rw [List.append_nil]; exact h4, h5⟩
    | nested r =>
      obtain ⟨pre', er, hpre⟩ := hnest (its.map Prod.snd) r [] (by simp)
      have hcur : cursorLine T.name its = [] := by
        obtain ⟨its', q, rfl⟩ : ∃ its' q, its = its' ++ [q] := by
          rcases List.eq_nil_or_concat its with rfl | ⟨a, b, h⟩
          · simp at hpre
          · exact ⟨a, b, by rw [h, List.concat_eq_append]⟩
        rw [List.map_append, List.map_cons, List.map_nil] at hpre
        have hq : q.2 = .runEnd er r := by
          have := (List.append_inj' hpre rfl).2
          simpa using this
        obtain ⟨q1, q2⟩ := q
        replace hq : q2 = .runEnd er r := hq
        subst hq
        unfold cursorLine
        rw [List.filter_append]
        simp [List.filter, Item.onStdout]
      obtain ⟨a1, a2⟩ := hone _ rfl
      have hcl : cursorLine T.name (its ++ [(hms, .nested r)]) = [] := by
        unfold cursorLine; rw [List.filter_append]; simp [List.filter, Item.onStdout]
      obtain ⟨d', hd'⟩ := feed_nested d r.output hi
      refine ⟨_, _, d', a1, a2 rfl, ?_, ?_, .inl hcl⟩
      · rw [hcl, feed_append, h3, hcur]; exact hd'
      · rw [feed_append, h4]; exact hd'
    | runEnd er r =>
      obtain ⟨e1, e2, e3, e4⟩ := hi
      obtain ⟨line, l1, l2⟩ := line_runEnd hp (er := er) (by omega) e3 e4
      refine hfull line _ [] ?_ (fun _ _ => rfl) l2 ?_ rfl rfl
      · show (formatRunEnd hms T.shown er r).map _ = _
        rw [l1]; rfl
      · rw [e1]
        exact (length_taskLine h6 (by omega) (by cases r.status <;> decide) _ _).1
    | summary er =>
      obtain ⟨e1, e2, e3⟩ := hi
      obtain ⟨t, ht, -⟩ := C41_least T.clock er e3
      obtain ⟨line, l1, l2⟩ := line_execEnd hp (er := er) (by omega) ht
      refine hfull line _ carriage ?_ (fun d l => feed_carriage d l 0) l2 ?_ rfl rfl
      · show (formatExecEnd hms T.clock er).map _ = _
        rw [l1]; rfl
      · rw [e1]; exact length_summaryLine h6 _ _ _
    | status er n =>
      obtain ⟨e1, e2, e3⟩ := hi
      obtain ⟨line, l1, l2⟩ := line_status hp (er := er) (by omega) e3
      have hlen := (length_taskLine h6 (count := er.runs.length + 1) (total := er.totalCount)
        (by omega) (status := "STRT".toList) (by decide +kernel) (T.name n) none).2 rfl
      rw [e1] at hlen
      have hcl : cursorLine T.name (its ++ [(hms, .status er n)]) =
          taskLine hms (er.runs.length + 1) er.totalCount "STRT".toList (T.name n) none := by
        unfold cursorLine; rw [List.filter_append]; simp [List.filter, Item.onStdout]
      have hx : (Item.status er n).stdout T hms = some (line ++ carriage) := by
        show (formatStatus hms er (T.name n)).map _ = _
        rw [l1]; rfl
      obtain ⟨a1, _⟩ := hone _ hx
      refine ⟨_, s', d, a1, ?_, ?_, h4, .inr ?_⟩
      · rw [List.filter_append]
        simp [List.filter, Item.isStatus]
        exact h2
      · rw [hcl, feed_append, h3, feed_append, feed_cover l2 d _ (by rw [e1, hlen]; exact hle),
          feed_carriage]
      · rw [hcl, e1]; exact hlen

/-- each output printed follows the end line of its task -/
def NestedOK (l : List Item) : Prop :=
  ∀ pre r post, l = pre ++ .nested r :: post → ∃ pre' er, pre = pre' ++ [.runEnd er r]

theorem NestedOK.append {a b : List Item} (ha : NestedOK a) (hb : NestedOK b) : NestedOK (a ++ b) := by
  intro pre r post h
  rcases List.append_eq_append_iff.1 h with ⟨c, hc, hb'⟩ | ⟨c, hc, hb'⟩
  · obtain ⟨pre', er, h'⟩ := hb c r post hb'
    exact ⟨a ++ pre', er, by rw [hc, h', List.append_assoc]⟩
  · cases c with
    | nil =>
      obtain ⟨pre', er, h'⟩ := hb [] r post (by simpa using hb'.symm)
      simp at h'
    | cons x c =>
      have hx := List.cons.inj hb'
      obtain ⟨h1, h2⟩ := hx
      subst h1
      exact ha pre r c hc

theorem nestedOK_of_no {l : List Item} (h : ∀ r, .nested r ∉ l) : NestedOK l := by
  intro pre r post hl
  exact absurd (by rw [hl]; simp) (h r)

theorem nestedOK_onAll (E : VisitEnv) : ∀ (es : List Event) (v : Visitor), v.verbose = false →
    NestedOK (v.onAll E es).2 := by
  intro es
  induction es with
  | nil => intro v _; exact nestedOK_of_no (by intro r h; cases h)
  | cons e es ih =>
    intro v hv
    rw [Visitor.onAll]
    refine NestedOK.append ?_ (ih _ ((on_verbose E v e).trans hv))
    cases e with
    | afterRun er r n =>
      show NestedOK (v.afterRun E er r n).2
      unfold Visitor.afterRun
      rw [hv]
      refine NestedOK.append ?_ ?_
      · by_cases hr : r.retcode = 0
        · rw [if_neg (c := (false || decide (r.retcode ≠ 0)) = true) (by simp [hr]), List.append_nil]
          refine nestedOK_of_no ?_
          intro r' h
          split at h
          · simp at h
          · cases h
        · rw [if_pos (by simp [hr]), if_pos (by simp [hr])]
          intro pre r' post h
          match pre, h with
          | [], h => simp at h
          | [x], h =>
            simp at h
            exact ⟨[], er, by rw [← h.1, h.2.1]; rfl⟩
          | x :: y :: pre, h => simp at h
      · refine nestedOK_of_no ?_
        intro r' h
        split at h
        · cases h
        · simp at h
    | beforeRun er n =>
      show NestedOK (v.beforeRun E er n).2
      unfold Visitor.beforeRun
      refine nestedOK_of_no ?_
      intro r h
      split at h
      · simp at h
      · cases h
    | nodeEnque n =>
      refine nestedOK_of_no ?_
      intro r h
      replace h : Item.nested r ∈ (if E.hasJob n then [] else [Item.noJob n]) := h
      split at h
      · cases h
      · simp at h
    | detectedCycle c => exact nestedOK_of_no (by intro r h; simp [Visitor.on] at h)
    | jobInval n i log => exact nestedOK_of_no (by intro r h; simp [Visitor.on, hv] at h)
    | depInval n m => exact nestedOK_of_no (by intro r h; simp [Visitor.on, hv] at h)
    | runLog n log => exact nestedOK_of_no (by intro r h; simp [Visitor.on, hv] at h)
    | afterExecution er => exact nestedOK_of_no (by intro r h; simp [Visitor.on] at h)
    | resumed => exact nestedOK_of_no (by intro r h; cases h)
    | onTick er => exact nestedOK_of_no (by intro r h; cases h)
    | launch n => exact nestedOK_of_no (by intro r h; cases h)
    | jobBegin n b => exact nestedOK_of_no (by intro r h; cases h)
    | jobEnd n => exact nestedOK_of_no (by intro r h; cases h)

theorem items_ok (C : Cfg) (hwf : C.dag.WF) (ms : List Move) (E : VisitEnv) (T : TextEnv)
    (hne : C.dag.nodes ≠ []) (hname : T.name = C.dag.name)
    (hpn : ∀ n, Printable (C.dag.name n)) (hpd : ∀ r, Printable (T.shown r))
    (hout : ∀ r ∈ recsOf (exec C ms).trace, '\x1b' ∉ allText r.output) :
    ∀ i ∈ ((Visitor.init false).onAll E (exec C ms).trace).2, ItemOK C.dag.nodes.length T i := by
  obtain ⟨hI, hT⟩ := both_exec hwf ms
  intro i h
  obtain ⟨pre, e, post, htr, h⟩ := item_split h
  have hv := onAll_verbose E (Visitor.init false) pre
  generalize ((Visitor.init false).onAll E pre).1 = v at *
  replace hv : v.verbose = false := hv
  have hg := hT.always pre e post htr
  cases e with
  | nodeEnque n =>
    replace h : i ∈ (if E.hasJob n then [] else [Item.noJob n]) := h
    split at h
    · cases h
    · rw [List.mem_singleton] at h; subst h; trivial
  | detectedCycle c =>
    replace h : i ∈ [Item.cycle c] := h
    rw [List.mem_singleton] at h; subst h; trivial
  | jobInval n inv log =>
    replace h : i ∈ (if v.verbose && inv = .invalid then [Item.invalidated n log] else []) := h
    rw [hv] at h; simp at h
  | depInval n m =>
    replace h : i ∈ (if v.verbose then [Item.invalidatedBy n m] else []) := h
    rw [hv] at h; simp at h
  | runLog n log =>
    replace h : i ∈ (if v.verbose then [Item.runLog n log] else []) := h
    rw [hv] at h; simp at h
  | afterExecution er =>
    replace h : i ∈ [Item.summary er] := h
    rw [List.mem_singleton] at h; subst h
    have hok := hg.2.1
    refine ⟨hok.total, fun h => hne (List.length_eq_zero_iff.1 h), ?_⟩
    obtain ⟨n, hn⟩ := List.exists_mem_of_ne_nil _ hne
    obtain ⟨r, hr, _⟩ := hg.2.2 n hn
    rw [hok.runs]
    exact List.ne_nil_of_mem hr
  | beforeRun er n =>
    have hlt := runs_lt_total C hwf ms er (.inl ⟨n, by rw [htr]; simp⟩)
    have htot := hg.2.2.2.1.total
    replace h : i ∈ (v.beforeRun E er n).2 := h
    unfold Visitor.beforeRun at h
    split at h
    · rw [List.mem_singleton] at h; subst h
      exact ⟨htot, by rw [← htot]; exact hlt, by rw [hname]; exact hpn n⟩
    · cases h
  | afterRun er r n =>
    have hlt := runs_lt_total C hwf ms er (.inr ⟨r, n, by rw [htr]; simp⟩)
    have htot := hg.2.1.total
    have hr : r ∈ recsOf (exec C ms).trace := mem_recsOf.2 ⟨er, n, by rw [htr]; simp⟩
    replace h : i ∈ (v.afterRun E er r n).2 := h
    unfold Visitor.afterRun at h
    rcases List.mem_append.1 h with h | h
    · rcases List.mem_append.1 h with h | h
      · split at h
        · rw [List.mem_singleton] at h; subst h
          refine ⟨htot, by rw [← htot]; exact hlt, ?_, hpd r⟩
          rw [hT.recs] at hr
          rw [(hI.recs r hr).name]; exact hpn _
        · cases h
      · split at h
        · rw [List.mem_singleton] at h; subst h
          exact hout r hr
        · cases h
    · split at h
      · cases h
      · rw [List.mem_singleton] at h; subst h
        exact ⟨htot, by rw [← htot]; exact hlt, by rw [hname]; exact hpn _⟩
  | resumed => cases h
  | onTick er => cases h
  | launch n => cases h
  | jobBegin n b => cases h
  | jobEnd n => cases h

/-- **C69** (partial).  The default visitor, not verbose: at any time of any execution the lines above
the cursor are those which would be there without any progress line, and the line of the cursor is
the last progress line, whole, or empty.  After an execution that ran to its end it is empty.  (For a
terminal wide enough, printable names, and jobs whose output has no escape sequences.  `its` are the
things printed, each with its time of day.) -/
theorem C69_partial (C : Cfg) (hwf : C.dag.WF) (ms : List Move) (E : VisitEnv) (T : TextEnv)
    (hne : C.dag.nodes ≠ []) (hname : T.name = C.dag.name)
    (hpn : ∀ n, Printable (C.dag.name n)) (hpd : ∀ r, Printable (T.shown r))
    (hout : ∀ r ∈ recsOf (exec C ms).trace, '\x1b' ∉ allText r.output)
    (its : List (Str × Item)) (hh : ∀ p ∈ its, Printable p.1 ∧ p.1.length = 6)
    (hits : its.map Prod.snd = ((Visitor.init false).onAll E (exec C ms).trace).2) :
    ∃ s s' d, stdoutOf T its = some s ∧
      stdoutOf T (its.filter (fun p => !p.2.isStatus)) = some s' ∧
      Term.blank.feed s' = ⟨d, [], 0, .text⟩ ∧
      Term.blank.feed s = ⟨d, cursorLine T.name its, 0, .text⟩ ∧
      ((exec C ms).phase = .finished → cursorLine T.name its = []) := by
  obtain ⟨s, s', d, h1, h2, h3, h4, h5⟩ := screen_inv (N := C.dag.nodes.length) (T := T) its hh
    (fun p hp => items_ok C hwf ms E T hne hname hpn hpd hout p.2 (by
      rw [← hits]; exact List.mem_map_of_mem hp))
    (by rw [hits]; exact nestedOK_onAll E _ _ rfl)
  refine ⟨s, s', d, h1, h2, h4, h3, fun hfin => ?_⟩
  have hT := tinv_exec hwf ms
  obtain ⟨pre, post, htr⟩ := List.append_of_mem (hT.isFinished hfin)
  have hpost : post = [] := by
    cases post with
    | nil => rfl
    | cons e post =>
      have := (hT.always (pre ++ [.afterExecution (exec C ms).erec]) e post (by rw [htr]; simp)).1
      exact absurd (by simp) (this (exec C ms).erec)
  subst hpost
  rw [htr, onAll_append] at hits
  rcases List.eq_nil_or_concat its with rfl | ⟨a, b, hab⟩
  · simp [Visitor.onAll, Visitor.on] at hits
  · rw [List.concat_eq_append] at hab
    subst hab
    rw [List.map_append] at hits
    have hb := (List.append_inj' hits rfl).2
    obtain ⟨b1, b2⟩ := b
    have : b2 = .summary (exec C ms).erec := by
      simpa [Visitor.onAll, Visitor.on] using hb
    subst this
    unfold cursorLine
    rw [List.filter_append]
    simp [List.filter, Item.onStdout]

namespace Ex

def text : TextEnv :=
  { name := (Ex.cfg 2).dag.name, shown := fun _ => "7ms".toList, clock := fun i => i }

def items (verbose : Bool) : List (Str × Item) :=
  ((Visitor.init verbose).onAll (noneHidden (Ex.cfg 2)) (exec (Ex.cfg 2) Ex.done2).trace).2.map
    fun i => (noonHms, i)

end Ex

/-- the screen after the example; all progress lines have been overwritten -/
example : (Ex.items false).countP (fun p => p.2.isStatus) = 5 ∧
    (stdoutOf Ex.text (Ex.items false)).map (fun s => (Term.blank.feed s).done.map (fun l => l.take 20)) =
    some ["120000  1/5  FAIL  x".toList, "        h".toList, "120000  2/5  SKIP  x".toList,
      "120000  3/5    OK  x".toList, "120000  4/5    OK  x".toList, "120000  5/5  DEPF  x".toList,
      "120000    5    run: ".toList] := by decide +kernel

/-- **C69** is false for a verbose visitor: the heading of a run log is written over the progress line
without erasing it, so one sees `Job x run log: RT  x` (the first 20 columns) instead of
`Job x run log: `. -/
theorem C69_counterexample :
    (exec (Ex.cfg 2) Ex.done2).phase = .finished ∧
    ((stdoutOf Ex.text (Ex.items true)).map fun s => ((Term.blank.feed s).done.map (fun l => l.take 20))[8]?) =
      some (some "Job x run log: RT  x".toList) ∧
    ((stdoutOf Ex.text ((Ex.items true).filter (fun p => !p.2.isStatus))).map fun s =>
        ((Term.blank.feed s).done.map (fun l => l.take 20))[8]?) =
      some (some "Job x run log: ".toList) := by decide +kernel

end Joque
