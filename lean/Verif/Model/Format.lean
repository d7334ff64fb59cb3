import Verif.Model.Process

/-!
# Formatting (src/format.cpp, src/records.cpp)

Strings hold one character per column (ASCII); `std::format` then pads by number of characters.
Wall-clock readings that go into the text are parameters.
-/

namespace Joque

/-- `to_sv(run_status)` (src/records.cpp:11-24). -/
def Status.name : Status → Str
  | .ok => ['O', 'K']
  | .skip => ['S', 'K', 'I', 'P']
  | .depf => ['D', 'E', 'P', 'F']
  | .fail => ['F', 'A', 'I', 'L']

/-- `to_sv(ekind)` (src/dag.cpp:32-43). -/
def EKind.name : EKind → Str
  | .after => "after".toList
  | .invalidatedBy => "invalidated by".toList
  | .requires => "requires".toList

/-- `to_sv(inval)` (src/dag.cpp:45-56). -/
def Inval.name : Inval → Str
  | .valid => "valid".toList
  | .invalid => "invalid".toList
  | .unknown => "unknown".toList

/-! ## runtime_sum -/

/-- Ticks of `system_clock` per second (`tp`, include/joque/records.hpp:28; nanoseconds in libstdc++). -/
def ticksPerSec : Int := 1000000000

/-- `std::chrono::ceil<std::chrono::seconds>(d)` (src/records.cpp:36): truncate, then add one if that is
less. -/
def ceilSec (d : Int) : Int :=
  let t := d.tdiv ticksPerSec
  if t * ticksPerSec < d then t + 1 else t

/-- rest of `min_element` by `start` (src/records.cpp:28-31) -/
def minStart (clock : Nat → Int) : RunRecord → List RunRecord → RunRecord
  | m, [] => m
  | m, r :: rs => if clock r.start < clock m.start then minStart clock r rs else minStart clock m rs

/-- rest of `max_element` by `end` (src/records.cpp:32-35) -/
def maxEnd (clock : Nat → Int) : RunRecord → List RunRecord → RunRecord
  | m, [] => m
  | m, r :: rs => if clock m.end < clock r.end then maxEnd clock r rs else maxEnd clock m rs

/-- `runtime_sum` (src/records.cpp:26-38); `clock` gives the readings behind the `start`/`end` of the
records.  Without records the end iterator is dereferenced: `none`. -/
def runtimeSum (clock : Nat → Int) (er : ExecRecord) : Option Int :=
  match er.runs with
  | [] => none
  | r :: rs => some (ceilSec (clock (maxEnd clock r rs).end - clock (minStart clock r rs).start))

/-! ## pieces of a line -/

/-- The character `\033` (src/format.cpp:18-28). -/
def escC : Char := '\x1b'

/-- `"\033[38;5;<n>m"` (src/format.cpp:18-24). -/
def colour (n : Str) : Str := escC :: '[' :: '3' :: '8' :: ';' :: '5' :: ';' :: (n ++ ['m'])

/-- `START` (src/format.cpp:18). -/
def cSTART : Str := colour ['3', '3']
/-- `OK` (src/format.cpp:19). -/
def cOK : Str := colour ['1', '1', '8']
/-- `FAIL` (src/format.cpp:20). -/
def cFAIL : Str := colour ['1', '9', '6']
/-- `DEPF` (src/format.cpp:21). -/
def cDEPF : Str := colour ['2', '0', '2']
/-- `SKIP` (src/format.cpp:22). -/
def cSKIP : Str := colour ['2', '2', '6']
/-- `GRAY` (src/format.cpp:23). -/
def cGRAY : Str := colour ['2', '3', '9']
/-- `END` (src/format.cpp:24). -/
def cEND : Str := colour ['4', '5']
/-- `NONE` (src/format.cpp:25). -/
def cNONE : Str := []
/-- `RESET` (src/format.cpp:26). -/
def cRESET : Str := [escC, '[', '0', 'm']

/-- `GRAY_DELIM` (src/format.cpp:28) -/
def grayDelim : Str := cGRAY ++ '/' :: cRESET

/-- `STAT_TO_COLOR` (src/format.cpp:30-36) -/
def statColor (s : Str) : Option Str :=
  if s = ['O', 'K'] then some cOK
  else if s = ['S', 'K', 'I', 'P'] then some cSKIP
  else if s = ['D', 'E', 'P', 'F'] then some cDEPF
  else if s = ['F', 'A', 'I', 'L'] then some cFAIL
  else if s = ['S', 'T', 'R', 'T'] then some cSTART
  else none

/-- `{:<w}` (src/format.cpp:67,90,96). -/
def padRight (w : Nat) (s : Str) : Str := s ++ List.replicate (w - s.length) ' '

/-- `{:c>w}` (src/format.cpp:56,62,82). -/
def padLeft (w : Nat) (c : Char) (s : Str) : Str := List.replicate (w - s.length) c ++ s

/-- The decimal digits of an unsigned number (`{}`, src/format.cpp:53,56,90,96). -/
def showNat (n : Nat) : Str := Nat.toDigits 10 n

/-- `fmt_time` (src/format.cpp:38-42); `hms` is the time of day, two digits each -/
def fmtTime (hms : Str) : Str := cGRAY ++ hms ++ cRESET

/-- `counter_width` (src/format.cpp:44-48): `(size_t)(log10(n) + 1)` is the number of decimal digits
(as long as `double` is exact enough, below 10^15); for 0 it converts minus infinity to an integer,
which is undefined behaviour. -/
def counterWidth (n : Nat) : Option Nat := if n = 0 then none else some (showNat n).length

/-- `fmt_counter` (src/format.cpp:50-58) -/
def fmtCounter (count max : Nat) : Option Str := (counterWidth max).map fun w => padLeft w '0' (showNat count)

/-- `fmt_status` (src/format.cpp:60-63) -/
def fmtStatus (stat color : Str) : Str := color ++ padLeft 4 ' ' stat ++ cRESET

/-- `str.find('/', index)` (src/format.cpp:71). -/
def findSlash (s : Str) (index : Nat) : Option Nat :=
  (((s.drop index).findIdx? (· = '/'))).map (index + ·)

/-- the loop of `fmt_text` (src/format.cpp:69-77); `none`: out of fuel -/
def slashLoop : Nat → Str → Nat → Option Str
  | 0, _, _ => none
  | fuel + 1, s, index =>
    match findSlash s index with
    | none => some s
    | some i => slashLoop fuel (s.take i ++ grayDelim ++ s.drop (i + 1)) (i + grayDelim.length)

/-- `fmt_text` (src/format.cpp:65-78) -/
def fmtText (fuel : Nat) (text : Str) : Option Str := slashLoop fuel (padRight 60 (text.take 60)) 0

/-- `fmt_dur` (src/format.cpp:80-83); `t` is the duration with its unit -/
def fmtDur (t : Str) : Str := [' ', ' '] ++ cGRAY ++ padLeft 8 ' ' t ++ cRESET

/-- the entry of one status in `end_text` (src/format.cpp:93-101) -/
def endEntry (st : Status) (count : Nat) : Str :=
  [' ', ' '] ++ (if 0 < count then cNONE else cGRAY) ++ st.name ++ [':', ' ']
    ++ (if 0 < count then (statColor st.name).getD [] else cGRAY)
    ++ padRight 5 (showNat count) ++ cRESET

/-- `end_text` (src/format.cpp:85-104); `stats` is a `std::map`, iterated in the order of the enum -/
def endText (er : ExecRecord) : Str :=
  ['r', 'u', 'n', ':', ' '] ++ padRight 9 (showNat (er.stats.ok + er.stats.fail))
    ++ endEntry .ok er.stats.ok ++ endEntry .skip er.stats.skip ++ endEntry .depf er.stats.depf
    ++ endEntry .fail er.stats.fail

/-- the counter part of a line (src/format.cpp:121-130) -/
def lineCounter (count : Nat) : Option Nat → Option Str
  | some total =>
    (fmtCounter count total).bind fun a =>
    (fmtCounter total total).bind fun b =>
    some (a ++ ['/'] ++ cGRAY ++ b ++ cRESET)
  | none =>
    (counterWidth count).bind fun w =>
    (fmtCounter count count).bind fun a =>
    some (List.replicate (w + 1) ' ' ++ a)

/-- `format_line` (src/format.cpp:110-146) -/
def formatLine (hms : Str) (count : Nat) (total : Option Nat) (status text : Str)
    (dur : Option Str) : Option Str :=
  (lineCounter count total).map fun c =>
    fmtTime hms ++ [' ', ' '] ++ c ++ [' ', ' '] ++ fmtStatus status ((statColor status).getD cNONE)
      ++ [' ', ' '] ++ text ++ [' ', ' '] ++ (match dur with
        | some d => fmtDur d
        | none => [])

/-- `format_status` (src/format.cpp:151-166) -/
def formatStatus (hms : Str) (er : ExecRecord) (name : Str) : Option Str :=
  (fmtText 61 name).bind fun t =>
    formatLine hms (er.runs.length + 1) (some er.totalCount) ['S', 'T', 'R', 'T'] t none

/-- `format_run_end` (src/format.cpp:188-209); `ms` shows a duration in milliseconds -/
def formatRunEnd (hms : Str) (ms : RunRecord → Str) (er : ExecRecord) (r : RunRecord) : Option Str :=
  (fmtText 61 r.name).bind fun t =>
    formatLine hms (er.runs.length + 1) (some er.totalCount) r.status.name t
      (if r.status = .ok ∨ r.status = .fail then some (ms r) else none)

/-- `format_exec_end` (src/format.cpp:211-225): the colour `END` is passed as the status -/
def formatExecEnd (hms : Str) (clock : Nat → Int) (er : ExecRecord) : Option Str :=
  (runtimeSum clock er).bind fun t =>
    formatLine hms er.totalCount none cEND (endText er) (some (showInt t ++ ['s']))

/-- one character in `format_nested` (src/format.cpp:176-182): prefix and last character -/
def nestedStep (indent : Str) (st : Str × Char × Str) (c : Char) : Str × Char × Str :=
  (if c = '\n' then indent else [], c, st.2.2 ++ st.1 ++ [c])

/-- `format_nested` (src/format.cpp:168-186) -/
def formatNested (indent : Str) (output : List Chunk) : Str :=
  let st := output.foldl (fun st ch => ch.data.foldl (nestedStep indent) st) (indent, '\n', [])
  if st.2.1 = '\n' then st.2.2 else st.2.2 ++ ['\n']

end Joque
