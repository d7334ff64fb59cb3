import Verif.Spec.Ink
import Verif.Props.Screen

/-! # C81: colours -/

namespace Joque

theorem ink_append (t : Ink) (a b : Str) : t.feed (a ++ b) = (t.feed a).feed b := List.foldl_append

/-- from colour `c` to colour `c'` -/
def Inks (c : Option Nat) (s : Str) (v : List (Char × Option Nat)) (c' : Option Nat) : Prop :=
  ∀ d, (Ink.mk d c true .text).feed s = ⟨d ++ v, c', true, .text⟩

theorem Inks.append {c c' c'' s s' v v'} (h : Inks c s v c') (h' : Inks c' s' v' c'') :
    Inks c (s ++ s') (v ++ v') c'' := by
  intro d
  rw [ink_append, h, h', List.append_assoc]

theorem Inks.plain {c : Option Nat} {s : Str} (h : Plain s) : Inks c s (inked c s) c := by
  intro d
  induction s generalizing d with
  | nil => simp [inked, Ink.feed]
  | cons x s ih =>
    have hx : x ≠ '\x1b' := fun e => h (by simp [e])
    show ((Ink.mk d c true .text).putc x).feed s = _
    have : (Ink.mk d c true .text).putc x = ⟨d ++ [(x, c)], c, true, .text⟩ := by
      simp [Ink.putc, hx]
    rw [this, ih (fun e => h (by simp [e]))]
    simp [inked]

theorem inks_nil (c : Option Nat) : Inks c [] [] c := fun d => by simp [Ink.feed]

theorem Inks.silent {c c' : Option Nat} {s : Str}
    (h : ∀ d, (Ink.mk d c true .text).feed s = ⟨d, c', true, .text⟩) : Inks c s [] c' := by
  intro d; rw [h, List.append_nil]

theorem inks_reset (c : Option Nat) : Inks c cRESET [] none := .silent fun _ => rfl
theorem inks_gray (c : Option Nat) : Inks c cGRAY [] gray := .silent fun _ => rfl
theorem inks_ok (c : Option Nat) : Inks c cOK [] (some 118) := .silent fun _ => rfl
theorem inks_fail (c : Option Nat) : Inks c cFAIL [] (some 196) := .silent fun _ => rfl
theorem inks_depf (c : Option Nat) : Inks c cDEPF [] (some 202) := .silent fun _ => rfl
theorem inks_skip (c : Option Nat) : Inks c cSKIP [] (some 226) := .silent fun _ => rfl
theorem inks_start (c : Option Nat) : Inks c cSTART [] (some 33) := .silent fun _ => rfl
theorem inks_end (c : Option Nat) : Inks c cEND [] (some 45) := .silent fun _ => rfl

theorem inks_status (c : Option Nat) (st : Status) :
    Inks c ((statColor st.name).getD cNONE) [] (some (statusColour st)) := by
  cases st
  · exact inks_ok c
  · exact inks_skip c
  · exact inks_depf c
  · exact inks_fail c

theorem inks_slashed (b : Str) (h : Plain b) :
    Inks none (b.flatMap slashed) (b.map fun c => (c, if c = '/' then gray else none)) none := by
  induction b with
  | nil => exact inks_nil none
  | cons c cs ih =>
    rw [List.flatMap_cons, slashed]
    have ih := ih (fun hx => h (by simp [hx]))
    by_cases hc : c = '/'
    · subst hc
      have h1 : Plain ['/'] := by unfold Plain; decide
      have := ((inks_gray none).append ((Inks.plain (c := gray) h1).append (inks_reset _))).append ih
      simpa [grayDelim, inked] using this
    · have h1 : Plain [c] := by
        intro hx; rw [List.mem_singleton] at hx; exact h (by rw [hx]; simp)
      have := (Inks.plain (c := none) h1).append ih
      simpa [hc, inked] using this

theorem plain_two : Plain [' ', ' '] := by unfold Plain; decide

theorem inks_dur {d : Str} (h : Plain d) :
    Inks none (fmtDur d) (inked none [' ', ' '] ++ inked gray (colRight 8 ' ' d)) none := by
  have := (((Inks.plain (c := none) plain_two).append (inks_gray none)).append
    (Inks.plain (plain_padLeft (w := 8) (c := ' ') (by decide) h))).append (inks_reset gray)
  simpa [fmtDur, colRight, padLeft] using this

theorem inks_line {hms : Str} (hh : Plain hms) {count total : Nat} (ht : total ≠ 0)
    {status name : Str} (hn : Plain name) {dur : Option Str} (hd : ∀ d, dur = some d → Plain d)
    (hs : Plain status) {col : Nat} (hc : Inks none ((statColor status).getD cNONE) [] (some col)) :
    ∃ line, ((fmtText 61 name).bind fun t => formatLine hms count (some total) status t dur) = some line ∧
      Draws line (taskInk hms count total status col name dur) := by
  have hl : (padRight 60 (name.take 60)).length = 60 :=
    length_padRight (by rw [List.length_take]; omega)
  have ht1 : fmtText 61 name = some ((padRight 60 (name.take 60)).flatMap slashed) :=
    slashLoop_spec 61 [] (padRight 60 (name.take 60)) (by rw [hl]; decide)
  have ht2 := inks_slashed _ (plain_padRight (w := 60) (plain_take (n := 60) hn))
  have h2 : Inks none [' ', ' '] (inked none [' ', ' ']) none := .plain plain_two
  have h1 : Inks none ['/'] (inked none ['/']) none := .plain (by unfold Plain; decide)
  have hw : counterWidth total = some (showNat total).length := if_neg ht
  have htot : padLeft (showNat total).length '0' (showNat total) = showNat total := by simp [padLeft]
  have hdur : Inks none (match dur with
        | some d => fmtDur d
        | none => []) (match dur with
      | some d => inked none [' ', ' '] ++ inked gray (colRight 8 ' ' d)
      | none => []) none := by
    cases dur with
    | none => exact inks_nil none
    | some d => exact inks_dur (hd d rfl)
  rw [ht1]
  refine ⟨_, by unfold formatLine lineCounter fmtCounter; simp only [hw]; rfl, ?_⟩
  have key := (((((((((inks_gray none).append (.plain hh)).append (inks_reset gray)).append h2).append
    ((((Inks.plain (c := none) (plain_padLeft (w := (showNat total).length) (c := '0') (by decide)
      (plain_showNat count))).append h1).append (inks_gray none)).append
      (.plain (plain_showNat total)) |>.append (inks_reset gray))).append h2).append
    ((hc.append (.plain (plain_padLeft (w := 4) (c := ' ') (by decide) hs))).append
      (inks_reset _))).append h2).append ht2).append h2 |>.append hdur
  have hsp : "  ".toList = [' ', ' '] := by decide +kernel
  have hsl : "/".toList = ['/'] := by decide +kernel
  intro d
  unfold taskInk
  rw [hsp, hsl]
  cases dur <;> simpa [fmtTime, fmtStatus, inked, colLeft, padRight, colRight, padLeft, digits, showNat,
    htot, List.append_assoc] using key d

/-- **C81**, start lines: STRT in blue -/
theorem C81_start (C : Cfg) (hwf : C.dag.WF) (ms : List Move) (pre post : List Event)
    (er : ExecRecord) (n : Node) (htr : (exec C ms).trace = pre ++ .beforeRun er n :: post)
    (hms : Str) (hh : Plain hms) (hn : Plain (C.dag.name n)) :
    ∃ line, formatStatus hms er (C.dag.name n) = some line ∧
      Draws line (taskInk hms ((recsOf pre).length + 1) C.dag.nodes.length "STRT".toList 33
        (C.dag.name n) none) := by
  have hok := ((both_exec hwf ms).2.always pre _ post htr).2.2.2.1
  have hlt := runs_lt_total C hwf ms er (.inl ⟨n, by rw [htr]; simp⟩)
  rw [← hok.total, ← hok.runs]
  have h4 : "STRT".toList = ['S', 'T', 'R', 'T'] := by decide +kernel
  rw [h4]
  exact inks_line hh (by omega) hn (by intro d h; cases h) (by unfold Plain; decide) (inks_start none)

/-- **C81**, end lines: the status in its colour -/
theorem C81_end (C : Cfg) (hwf : C.dag.WF) (ms : List Move) (pre post : List Event)
    (er : ExecRecord) (r : RunRecord) (n : Node)
    (htr : (exec C ms).trace = pre ++ .afterRun er r n :: post)
    (hms : Str) (hh : Plain hms) (hn : Plain (C.dag.name r.node))
    (shown : RunRecord → Str) (hd : Plain (shown r)) :
    ∃ line dur, formatRunEnd hms shown er r = some line ∧
      Draws line (taskInk hms ((recsOf pre).length + 1) C.dag.nodes.length r.status.name
        (statusColour r.status) (C.dag.name r.node) dur) ∧
      (JobBegan (exec C ms).trace r.node → dur = some (shown r)) ∧
      (¬ JobBegan (exec C ms).trace r.node → dur = none) := by
  obtain ⟨hI, hT⟩ := both_exec hwf ms
  have hok := (hT.always pre _ post htr).2.1
  have hlt := runs_lt_total C hwf ms er (.inr ⟨r, n, by rw [htr]; simp⟩)
  have hr : r ∈ (exec C ms).erec.runs := by
    rw [← hT.recs]; exact mem_recsOf.2 ⟨er, n, by rw [htr]; simp⟩
  have hname := (hI.recs r hr).name
  rw [← hok.total, ← hok.runs, ← hname]
  rw [← hname] at hn
  have hd' : ∀ d, (if r.status = .ok ∨ r.status = .fail then some (shown r) else none) = some d →
      Plain d := by
    intro d h
    split at h
    · injection h with h; rw [← h]; exact hd
    · cases h
  obtain ⟨line, h1, h2⟩ := inks_line hh (count := er.runs.length + 1) (total := er.totalCount)
    (by omega) hn hd' (plain_name r.status) (inks_status none r.status)
  have hiff := (began_of_status hT hr).1
  exact ⟨line, _, h1, h2, fun h => if_pos (hiff.1 h), fun h => if_neg (fun h' => h (hiff.2 h'))⟩

theorem inks_endEntry (st : Status) (n : Nat) :
    Inks none (endEntry st n) (countInk st st.name n) none := by
  have h2 : Inks none [' ', ' '] (inked none [' ', ' ']) none := .plain plain_two
  have h3 : ∀ c, Inks c [':', ' '] (inked c [':', ' ']) c :=
    fun c => .plain (by unfold Plain; decide)
  have hn : ∀ c, Inks c st.name (inked c st.name) c := fun c => .plain (plain_name st)
  have hd : ∀ c, Inks c (padRight 5 (showNat n)) (inked c (padRight 5 (showNat n))) c :=
    fun c => .plain (plain_padRight (plain_showNat n))
  have hsp : "  ".toList = [' ', ' '] := by decide +kernel
  have hco : ": ".toList = [':', ' '] := by decide +kernel
  unfold endEntry countInk
  rw [hsp, hco]
  by_cases hp : n = 0
  · subst hp
    rw [if_neg (Nat.lt_irrefl 0), if_neg (Nat.lt_irrefl 0), if_pos rfl, if_pos rfl]
    have := (((((h2.append (inks_gray none)).append (hn _)).append (h3 _)).append
      (inks_gray _)).append (hd _)).append (inks_reset _)
    simpa [colLeft, padRight, digits, showNat, inked] using this
  · rw [if_pos (Nat.pos_of_ne_zero hp), if_pos (Nat.pos_of_ne_zero hp), if_neg hp, if_neg hp]
    have hc : Inks none ((statColor st.name).getD []) [] (some (statusColour st)) := inks_status none st
    have := (((((h2.append (inks_nil none)).append (hn _)).append (h3 _)).append
      hc).append (hd _)).append (inks_reset _)
    simpa [cNONE, colLeft, padRight, digits, showNat, inked] using this

theorem plain_showInt (z : Int) : Plain (showInt z) := fun h =>
  absurd (printable_showInt z _ h).1 (by decide)

theorem inks_execEnd {hms : Str} (hh : Plain hms) {er : ExecRecord} (hpos : er.totalCount ≠ 0)
    {clock : Nat → Int} {t : Int} (ht : runtimeSum clock er = some t) :
    ∃ line, formatExecEnd hms clock er = some line ∧
      Draws line (summaryInk hms er.totalCount er.stats.get (showInt t)) := by
  have h2 : Inks none [' ', ' '] (inked none [' ', ' ']) none := .plain plain_two
  have hr5 : Inks none ['r', 'u', 'n', ':', ' '] (inked none ['r', 'u', 'n', ':', ' ']) none :=
    .plain (by unfold Plain; decide)
  have hs : Plain ['s'] := by unfold Plain; decide
  have hw : counterWidth er.totalCount = some (showNat er.totalCount).length := if_neg hpos
  have hc : statColor cEND = none := by decide
  have hp : padLeft 4 ' ' cEND = cEND := by decide
  have htot : padLeft (showNat er.totalCount).length '0' (showNat er.totalCount) =
    showNat er.totalCount := by simp [padLeft]
  refine ⟨_, by rw [formatExecEnd, ht, Option.bind_some, formatLine, lineCounter, fmtCounter, hw]; rfl,
    ?_⟩
  rw [hc]
  show Draws (_ ++ _ ++ (_ ++ padLeft (showNat er.totalCount).length '0' (showNat er.totalCount)) ++ _ ++ _ ++ _ ++ _ ++ _ ++ _) _
  have key := (((((((((inks_gray none).append (.plain hh)).append (inks_reset gray)).append h2).append
    ((Inks.plain (c := none) (plain_replicate (n := (showNat er.totalCount).length + 1) (c := ' ')
      (by decide))).append (.plain (plain_showNat er.totalCount)))).append h2).append
      ((inks_end none).append (inks_reset _))).append h2).append
      (((((hr5.append (.plain (plain_padRight (w := 9)
        (plain_showNat (er.stats.ok + er.stats.fail))))).append
        (inks_endEntry .ok er.stats.ok)).append (inks_endEntry .skip er.stats.skip)).append
        (inks_endEntry .depf er.stats.depf)).append (inks_endEntry .fail er.stats.fail))).append h2
      |>.append (inks_dur (plain_append (plain_showInt t) hs))
  have hst : fmtStatus cEND ((none : Option Str).getD cNONE) = cEND ++ cRESET := by
    rw [fmtStatus, hp]; rfl
  have e1 : "  ".toList = [' ', ' '] := by decide +kernel
  have e2 : "    ".toList = [' ', ' ', ' ', ' '] := by decide +kernel
  have e3 : "    run: ".toList = [' ', ' ', ' ', ' ', 'r', 'u', 'n', ':', ' '] := by decide +kernel
  have e4 : "OK".toList = ['O', 'K'] := by decide +kernel
  have e5 : "SKIP".toList = ['S', 'K', 'I', 'P'] := by decide +kernel
  have e6 : "DEPF".toList = ['D', 'E', 'P', 'F'] := by decide +kernel
  have e7 : "FAIL".toList = ['F', 'A', 'I', 'L'] := by decide +kernel
  rw [htot, hst]
  intro d
  unfold summaryInk
  rw [e1, e2, e3, e4, e5, e6, e7]
  simpa [fmtTime, endText, inked, colRight, colLeft, padLeft, padRight,
    digits, showNat, Status.name, Stats.get, List.append_assoc] using key d

/-- **C81**, summary -/
theorem C81_summary (C : Cfg) (hwf : C.dag.WF) (ms : List Move) (er : ExecRecord)
    (he : .afterExecution er ∈ (exec C ms).trace) (hne : C.dag.nodes ≠ [])
    (hms : Str) (hh : Plain hms) (clock : Nat → Int) :
    ∃ line t, formatExecEnd hms clock er = some line ∧ runtimeSum clock er = some t ∧
      Draws line (summaryInk hms C.dag.nodes.length
        (fun st => (recsOf (exec C ms).trace).countP (fun r => r.status = st)) (showInt t)) := by
  obtain ⟨hI, hT⟩ := both_exec hwf ms
  obtain ⟨pre, post, htr⟩ := List.append_of_mem he
  have hg := hT.always pre _ post htr
  have hok := hg.2.1
  have hpost : post = [] := by
    cases post with
    | nil => rfl
    | cons e post =>
      have := (hT.always (pre ++ [.afterExecution er]) e post (by rw [htr]; simp)).1
      exact absurd (by simp) (this er)
  subst hpost
  have hrec : recsOf (exec C ms).trace = er.runs := by
    rw [htr, recsOf_append, hok.runs]; simp [recsOf]
  have hruns : er.runs ≠ [] := by
    obtain ⟨n, hn⟩ := List.exists_mem_of_ne_nil _ hne
    obtain ⟨r, hr, _⟩ := hg.2.2 n hn
    rw [hok.runs]
    exact List.ne_nil_of_mem hr
  obtain ⟨t, ht, -⟩ := C41_least clock er hruns
  have hpos : er.totalCount ≠ 0 := by
    rw [hok.total]
    exact fun h => hne (List.length_eq_zero_iff.1 h)
  have hget : er.stats.get = fun st => er.runs.countP (fun r => r.status = st) := funext hok.stats
  rw [← hok.total, hrec, ← hget]
  obtain ⟨line, h1, h2⟩ := inks_execEnd hh hpos ht
  exact ⟨line, t, h1, ht, h2⟩

/-! ### The whole output -/

/-- what goes into the text has no escape character -/
def ItemPlain (T : TextEnv) : Item → Prop
  | .noJob _ | .cycle _ | .summary _ => True
  | .invalidated n log | .runLog n log => Plain (T.name n) ∧ Plain log
  | .invalidatedBy n m => Plain (T.name n) ∧ Plain (T.name m)
  | .status _ n => Plain (T.name n)
  | .runEnd _ r => Plain r.name ∧ Plain (T.shown r)
  | .nested r => Plain (allText r.output)

theorem inks_carriage : Inks none carriage [('\r', none)] none := fun _ => rfl

/-- **C81**.  The cursor is hidden while it goes back to the start of the line, and visible again
afterwards. -/
theorem C81_cursor (d : List (Char × Option Nat)) (c : Option Nat) :
    ∃ hide shown, carriage = hide ++ '\r' :: shown ∧
      (Ink.mk d c true .text).feed hide = ⟨d, c, false, .text⟩ ∧
      (Ink.mk d c true .text).feed carriage = ⟨d ++ [('\r', c)], c, true, .text⟩ :=
  ⟨carriage.take 6, carriage.drop 7, rfl, rfl, rfl⟩

theorem inks_some_line {hms : Str} (hh : Plain hms) {count total : Nat}
    {status name : Str} (hn : Plain name) {dur : Option Str} (hd : ∀ d, dur = some d → Plain d)
    (hs : Plain status) {col : Nat} (hc : Inks none ((statColor status).getD cNONE) [] (some col))
    {line : Str}
    (h : ((fmtText 61 name).bind fun t => formatLine hms count (some total) status t dur) = some line) :
    ∃ v, Inks none line v none := by
  by_cases ht : total = 0
  · exfalso
    subst ht
    cases hf : fmtText 61 name <;> rw [hf] at h <;>
      simp [formatLine, lineCounter, fmtCounter, counterWidth] at h
  · obtain ⟨l, h1, h2⟩ := inks_line hh (count := count) ht hn hd hs hc
    rw [h] at h1
    injection h1 with h1
    exact ⟨_, h1 ▸ h2⟩

theorem plain_nested {indent : Str} (hi : Plain indent) {cs : List Chunk} (h : Plain (allText cs)) :
    Plain (formatNested indent cs) := by
  obtain ⟨ls, p, hs⟩ := C39_total (allText cs)
  rw [C39_lines indent cs ls p hs]
  have hn : Plain ['\n'] := by unfold Plain; decide
  rw [hs.1] at h
  refine plain_append ?_ ?_
  · intro hm
    obtain ⟨l, hl, hm⟩ := List.mem_flatMap.1 hm
    rcases List.mem_append.1 hm with hm | hm
    · rcases List.mem_append.1 hm with hm | hm
      · exact hi hm
      · exact h (List.mem_append.2 (.inl (List.mem_flatMap.2 ⟨l, hl, List.mem_append.2 (.inl hm)⟩)))
    · exact hn hm
  · split
    · intro hm; cases hm
    · exact plain_append (plain_append hi fun hm => h (List.mem_append.2 (.inr hm))) hn

theorem inks_item {T : TextEnv} {hms : Str} (hh : Plain hms) {i : Item} (hi : ItemPlain T i) {s : Str}
    (h : i.stdout T hms = some s) : ∃ v, Inks none s v none := by
  have hn : Plain ['\n'] := by unfold Plain; decide
  have key : ∀ {s : Str}, Plain s → ∃ v, Inks none s v none := fun hs => ⟨_, .plain hs⟩
  cases i with
  | noJob n => injection h with h; subst h; exact ⟨_, inks_nil none⟩
  | cycle c => injection h with h; subst h; exact ⟨_, inks_nil none⟩
  | invalidated n log =>
    injection h with h; subst h
    exact key (plain_append (plain_append (plain_append (plain_append (by unfold Plain; decide +kernel)
      hi.1) (by unfold Plain; decide +kernel)) hi.2) hn)
  | invalidatedBy n m =>
    injection h with h; subst h
    exact key (plain_append (plain_append (plain_append (plain_append (by unfold Plain; decide +kernel)
      hi.1) (by unfold Plain; decide +kernel)) hi.2) hn)
  | runLog n log =>
    injection h with h; subst h
    exact key (plain_append (plain_append (plain_append (plain_append (by unfold Plain; decide +kernel)
      hi.1) (by unfold Plain; decide +kernel)) hi.2) hn)
  | status er n =>
    obtain ⟨line, hl, rfl⟩ := Option.map_eq_some_iff.1 h
    obtain ⟨v, hv⟩ := inks_some_line (status := ['S', 'T', 'R', 'T']) hh hi (by intro d h; cases h)
      (by unfold Plain; decide) (inks_start none) hl
    exact ⟨_, hv.append inks_carriage⟩
  | runEnd er r =>
    obtain ⟨line, hl, rfl⟩ := Option.map_eq_some_iff.1 h
    obtain ⟨v, hv⟩ := inks_some_line hh hi.1 (by
      intro d h
      split at h
      · injection h with h; rw [← h]; exact hi.2
      · cases h) (plain_name r.status) (inks_status none r.status) hl
    exact ⟨_, hv.append (.plain hn)⟩
  | nested r =>
    injection h with h; subst h
    exact key (plain_nested (plain_replicate (by decide)) hi)
  | summary er =>
    obtain ⟨line, hl, rfl⟩ := Option.map_eq_some_iff.1 h
    have hl' := hl
    unfold formatExecEnd at hl'
    obtain ⟨t, ht, hl'⟩ := Option.bind_eq_some_iff.1 hl'
    have hpos : er.totalCount ≠ 0 := by
      intro h0
      simp [formatLine, lineCounter, fmtCounter, counterWidth, h0] at hl'
    obtain ⟨line', h1, h2⟩ := inks_execEnd hh hpos ht
    rw [hl] at h1
    injection h1 with h1
    subst h1
    exact ⟨_, (inks_carriage.append h2).append (.plain hn)⟩

theorem inks_stdout {T : TextEnv} : ∀ {its : List (Str × Item)} {s : Str}, stdoutOf T its = some s →
    (∀ p ∈ its, Plain p.1 ∧ ItemPlain T p.2) → ∃ v, Inks none s v none := by
  intro its
  induction its with
  | nil => intro s h _; injection h with h; subst h; exact ⟨_, inks_nil none⟩
  | cons p its ih =>
    intro s h hp
    obtain ⟨hms, i⟩ := p
    obtain ⟨a, ha, h⟩ := Option.bind_eq_some_iff.1 h
    obtain ⟨b, hb, rfl⟩ := Option.map_eq_some_iff.1 h
    obtain ⟨v, hv⟩ := inks_item (hp (hms, i) (by simp)).1 (hp (hms, i) (by simp)).2 ha
    obtain ⟨w, hw⟩ := ih hb (fun p h => hp p (by simp [h]))
    exact ⟨_, hv.append hw⟩

theorem items_plain (C : Cfg) (hwf : C.dag.WF) (ms : List Move) (E : VisitEnv) (T : TextEnv)
    (verbose : Bool) (hname : T.name = C.dag.name)
    (hpn : ∀ n, Plain (C.dag.name n)) (hpd : ∀ r, Plain (T.shown r))
    (hlog : ∀ n i log, .jobInval n i log ∈ (exec C ms).trace → Plain log)
    (hlog' : ∀ n log, .runLog n log ∈ (exec C ms).trace → Plain log)
    (hout : ∀ r ∈ recsOf (exec C ms).trace, Plain (allText r.output)) :
    ∀ i ∈ ((Visitor.init verbose).onAll E (exec C ms).trace).2, ItemPlain T i := by
  obtain ⟨hI, hT⟩ := both_exec hwf ms
  intro i h
  obtain ⟨pre, e, post, htr, h⟩ := item_split h
  have he : e ∈ (exec C ms).trace := by rw [htr]; simp
  generalize ((Visitor.init verbose).onAll E pre).1 = v at *
  cases e with
  | nodeEnque n =>
    replace h : i ∈ (if E.hasJob n then [] else [Item.noJob n]) := h
    split at h
    · cases h
    · rw [List.mem_singleton] at h; subst h; trivial
  | detectedCycle c =>
    replace h : i ∈ [Item.cycle c] := h
    rw [List.mem_singleton] at h; subst h; trivial
  | jobInval n inv log =>
    replace h : i ∈ (if v.verbose && inv = .invalid then [Item.invalidated n log] else []) := h
    split at h
    · rw [List.mem_singleton] at h; subst h; exact ⟨hname ▸ hpn n, hlog _ _ _ he⟩
    · cases h
  | depInval n m =>
    replace h : i ∈ (if v.verbose then [Item.invalidatedBy n m] else []) := h
    split at h
    · rw [List.mem_singleton] at h; subst h; exact ⟨hname ▸ hpn n, hname ▸ hpn m⟩
    · cases h
  | runLog n log =>
    replace h : i ∈ (if v.verbose then [Item.runLog n log] else []) := h
    split at h
    · rw [List.mem_singleton] at h; subst h; exact ⟨hname ▸ hpn n, hlog' _ _ he⟩
    · cases h
  | afterExecution er =>
    replace h : i ∈ [Item.summary er] := h
    rw [List.mem_singleton] at h; subst h; trivial
  | beforeRun er n =>
    replace h : i ∈ (v.beforeRun E er n).2 := h
    unfold Visitor.beforeRun at h
    split at h
    · rw [List.mem_singleton] at h; subst h; show Plain (T.name n); exact hname ▸ hpn n
    · cases h
  | afterRun er r n =>
    have hr : r ∈ recsOf (exec C ms).trace := mem_recsOf.2 ⟨er, n, he⟩
    have hrn : r.name = C.dag.name r.node := (hI.recs r (hT.recs ▸ hr)).name
    replace h : i ∈ (v.afterRun E er r n).2 := h
    unfold Visitor.afterRun at h
    rcases List.mem_append.1 h with h | h
    · rcases List.mem_append.1 h with h | h
      · split at h
        · rw [List.mem_singleton] at h; subst h; exact ⟨hrn ▸ hpn _, hpd r⟩
        · cases h
      · split at h
        · rw [List.mem_singleton] at h; subst h; exact hout r hr
        · cases h
    · split at h
      · cases h
      · rw [List.mem_singleton] at h; subst h; show Plain (T.name _); exact hname ▸ hpn _
  | resumed => cases h
  | onTick er => cases h
  | launch n => cases h
  | jobBegin n b => cases h
  | jobEnd n => cases h

/-- **C81**, no colour leaks.  Whatever the default visitor has printed at any point of any execution,
verbose or not, between two of its outputs the terminal has its default colour and shows the cursor
(unless names, logs or outputs contain escape sequences themselves).  `its` are the things
printed, each with its time of day. -/
theorem C81_no_leak (C : Cfg) (hwf : C.dag.WF) (ms : List Move) (E : VisitEnv) (T : TextEnv)
    (verbose : Bool) (hname : T.name = C.dag.name)
    (hpn : ∀ n, Plain (C.dag.name n)) (hpd : ∀ r, Plain (T.shown r))
    (hlog : ∀ n i log, .jobInval n i log ∈ (exec C ms).trace → Plain log)
    (hlog' : ∀ n log, .runLog n log ∈ (exec C ms).trace → Plain log)
    (hout : ∀ r ∈ recsOf (exec C ms).trace, Plain (allText r.output))
    (its : List (Str × Item)) (hh : ∀ p ∈ its, Plain p.1)
    (hits : its.map Prod.snd = ((Visitor.init verbose).onAll E (exec C ms).trace).2)
    (a b : List (Str × Item)) (hab : its = a ++ b) (s : Str) (hs : stdoutOf T a = some s) :
    (Ink.fresh.feed s).colour = none ∧ (Ink.fresh.feed s).cursor = true ∧
      (Ink.fresh.feed s).mode = .text := by
  have hp := items_plain C hwf ms E T verbose hname hpn hpd hlog hlog' hout
  obtain ⟨v, hv⟩ := inks_stdout hs (by
    intro p h
    refine ⟨hh p (by rw [hab]; simp [h]), hp _ ?_⟩
    rw [← hits, hab]
    exact List.mem_map_of_mem (by simp [h]))
  have : Ink.fresh.feed s = ⟨[] ++ v, none, true, .text⟩ := hv []
  rw [this]
  exact ⟨rfl, rfl, rfl⟩

/-- **C81**: the colours of the statuses, of STRT, of gray and the default one all differ. -/
theorem C81_colours_differ :
    (∀ a b : Status, statusColour a = statusColour b → a = b) ∧
    ∀ a : Status, statusColour a ≠ 33 ∧ some (statusColour a) ≠ gray ∧ some 33 ≠ gray := by
  refine ⟨?_, ?_⟩
  · intro a b; cases a <;> cases b <;> decide
  · intro a; cases a <;> decide

/-- the example of C69, verbose: the whole output is defined, and what is red in it -/
example : ((stdoutOf Ex.text (Ex.items true)).map fun s =>
    ((Ink.fresh.feed s).colour, (Ink.fresh.feed s).cursor,
      (Ink.fresh.feed s).drawn.filterMap fun p => if p.2 = some 196 then some p.1 else none)) =
    some (none, true, "FAIL1    ".toList) := by decide +kernel

end Joque
