import Verif.Model.Format

/-!
# Time points as text (src/json.cpp:17, src/junit.cpp:78-79, src/format.cpp:40-41)

`std::format` of a `system_clock::time_point` is a library function; its result is laid down by the C++
standard ([time.format], [time.cal.ymd]): the Gregorian calendar without offset and leap seconds.  A time
point is a number of ticks (nanoseconds in libstdc++) since 1970-01-01 00:00:00.  The default locale is
assumed (`{}` means `{:L%F %T}`).
-/

namespace Joque

/-- a date: year, month 1-12, day 1-31 (`year_month_day` behind `%F`, src/json.cpp:17, src/junit.cpp:79) -/
structure Date where
  y : Int
  m : Int
  d : Int
deriving DecidableEq, Repr

/-- The date of a day given by its number (day 0 is 1970-01-01; `year_month_day(sys_days)` behind `%F`,
src/json.cpp:17, src/junit.cpp:79).  Days are counted from a 1 March: 146097 days in 400 years, 36524 in a
century, 1461 in four years, and the months from March on have `(153 * mp + 2) / 5` days before them.
The library uses another formula; the standard allows only one result. -/
def civil (day : Int) : Date :=
  let z := day + 719468
  let era := z / 146097
  let doe := z % 146097
  let c := min (doe / 36524) 3
  let r := doe - 36524 * c
  let q := r / 1461
  let r2 := r - 1461 * q
  let a := min (r2 / 365) 3
  let doy := r2 - 365 * a
  let yoe := 100 * c + 4 * q + a
  let mp := (5 * doy + 2) / 153
  { y := 400 * era + yoe + (if mp < 10 then 0 else 1)
    m := if mp < 10 then mp + 3 else mp - 9
    d := doy - (153 * mp + 2) / 5 + 1 }

/-- Ticks in a day (`%F` and `%T` of a time point, src/json.cpp:17, src/junit.cpp:79). -/
def ticksPerDay : Int := 86400 * ticksPerSec

/-- A number with at least `w` digits (`%Y`, `%m`, `%d`, `%H`, `%M`, `%S`; src/json.cpp:17,
src/junit.cpp:79, src/format.cpp:41). -/
def padNum (w : Nat) (i : Int) : Str :=
  (if i < 0 then ['-'] else []) ++ padLeft w '0' (showNat i.natAbs)

/-- `%F` (src/json.cpp:17, src/junit.cpp:79) -/
def dateText (t : Int) : Str :=
  let x := civil (t / ticksPerDay)
  padNum 4 x.y ++ '-' :: (padNum 2 x.m ++ '-' :: padNum 2 x.d)

/-- `%T` of a time point in ticks (src/json.cpp:17, src/junit.cpp:79): hours, minutes, seconds and their
decimal fraction -/
def clockText (t : Int) : Str :=
  let s := t % ticksPerDay / ticksPerSec
  padNum 2 (s / 3600) ++ ':' :: (padNum 2 (s / 60 % 60) ++ ':' :: (padNum 2 (s % 60) ++ '.' :: padNum 9 (t % ticksPerSec)))

/-- `std::format("{}", val)` for a time point (src/json.cpp:17) -/
def jsonTime (t : Int) : Str := dateText t ++ ' ' :: clockText t

/-- `std::format("{:%FT%TZ}", now)` (src/junit.cpp:77-79) -/
def junitTime (t : Int) : Str := dateText t ++ 'T' :: (clockText t ++ ['Z'])

/-- `{}` of a `file_time_type` in libstdc++ (src/process.cpp:109-113): converted to the system clock, its epoch
is 2174-01-01 -/
def fileTimeText (t : Int) : Str := jsonTime (t + 6437664000 * ticksPerSec)

/-- `time_point_cast<seconds>` (src/format.cpp:157,194,215): towards zero -/
def castSec (t : Int) : Int := t.tdiv ticksPerSec

/-- `{:%H}{:%M}{:%S}` of a time point in seconds (src/format.cpp:40-41): the `hms` of `fmtTime` -/
def hmsText (s : Int) : Str :=
  let r := s % 86400
  padNum 2 (r / 3600) ++ (padNum 2 (r / 60 % 60) ++ padNum 2 (r % 60))

/-- the duration in the line of a record (src/format.cpp:196-200): `duration_cast<milliseconds>` and `{}` -/
def msText (clock : Nat → Int) (r : RunRecord) : Str :=
  showInt ((clock r.end - clock r.start).tdiv 1000000) ++ ['m', 's']

end Joque
