import Verif.Model.Job

/-!
# Subprocess jobs (include/joque/process.hpp, src/process.cpp)

Paths are strings.  File times are integers relative to the epoch of
`std::filesystem::file_time_type` (for libstdc++ the epoch is the year 2174, so the times of real
files are negative).  The file system does not change while `is_invalidated` looks at it and its
queries do not fail.
-/

namespace Joque

/-- A file as joque sees it: `last_write_time` (src/process.cpp:30) and what `retfile >> …` reads
(src/process.cpp:70-71). -/
structure PFile where
  time : Int
  content : Str
  deriving DecidableEq, Repr

/-- File system: what is at a path (src/process.cpp:29-30,64,70,87,96). -/
abbrev FS := Str → Option PFile

/-- `struct process` (include/joque/process.hpp:23-54). -/
structure Process where
  cmd : List Str
  input : List Str
  output : List Str
  retcodeFile : Option Str
  deriving DecidableEq, Repr

/-- `process res;` (include/joque/process.hpp:71-93). -/
def Process.empty : Process := { cmd := [], input := [], output := [], retcodeFile := none }

/-- An argument of `process::derive`, by the branch of `if constexpr` it takes
(include/joque/process.hpp:77-89). -/
inductive PArg where
  | out (p : Str)
  | path (p : Str)
  | other (s : Str)
  deriving DecidableEq, Repr

/-- what `derive` does with one argument (include/joque/process.hpp:76-90) -/
def Process.take (r : Process) : PArg → Process
  | .out p => { r with cmd := r.cmd ++ [p], output := r.output ++ [p] }
  | .path p => { r with cmd := r.cmd ++ [p], input := r.input ++ [p] }
  | .other s => { r with cmd := r.cmd ++ [s] }

/-- `process::derive` (include/joque/process.hpp:71-93). -/
def Process.derive (args : List PArg) : Process := args.foldl Process.take Process.empty

/-- `add_output` (src/process.cpp:45-49). -/
def Process.addOutput (r : Process) (p : Str) : Process := { r with output := r.output ++ [p] }

/-- `add_input` (src/process.cpp:50-54). -/
def Process.addInput (r : Process) (p : Str) : Process := { r with input := r.input ++ [p] }

/-- `set_retcode_file` (src/process.cpp:55-59). -/
def Process.setRetcodeFile (r : Process) (p : Str) : Process := { r with retcodeFile := some p }

/-- `path_to_write_time` (src/process.cpp:26-32). -/
def writeTime (fs : FS) (p : Str) : Int :=
  match fs p with
  | some f => f.time
  | none => 0

/-- `format_cmd` (src/process.cpp:34-42). -/
def formatCmd (cmd : List Str) : Str :=
  (cmd.flatMap fun arg => (arg.flatMap fun c => if c = ' ' then ['\\', ' '] else [c]) ++ [' ']) ++ ['\n']

/-- Rest of `std::ranges::min_element` (src/process.cpp:93-94) after the first element: the first smallest. -/
def minOf (f : Str → Int) : Str → List Str → Str
  | m, [] => m
  | m, x :: xs => if f x < f m then minOf f x xs else minOf f m xs

/-- Rest of `std::ranges::max_element` (src/process.cpp:100-101) after the first element: the first largest. -/
def maxOf (f : Str → Int) : Str → List Str → Str
  | m, [] => m
  | m, x :: xs => if f m < f x then maxOf f x xs else maxOf f m xs

/-- `std::isspace` in the "C" locale (for `retfile >> last_retcode`, src/process.cpp:71). -/
def isWs (c : Char) : Bool :=
  c = ' ' || c = '\t' || c = '\n' || c = '\x0b' || c = '\x0c' || c = '\r'

/-- What `retfile >> last_retcode` (src/process.cpp:71) stores for values outside `int`. -/
def clampInt (i : Int) : Int := if i < -2147483648 then -2147483648 else if 2147483647 < i then 2147483647 else i

/-- `int x = 0; stream >> x` (src/process.cpp:70-72): white space is skipped, then sign and decimal
digits; nothing parsable stores 0, out of range stores the nearest `int`. -/
def readInt (s : Str) : Int :=
  let s := s.dropWhile isWs
  let neg := s.head? = some '-'
  let s := if s.head? = some '-' ∨ s.head? = some '+' then s.tail else s
  let ds := s.takeWhile Char.isDigit
  let v : Int := Nat.ofDigitChars 10 ds 0
  clampInt (if neg then -v else v)

/-- `stream << int` and `{}` for an `int` (src/process.cpp:75-77,172). -/
def showInt (i : Int) : Str :=
  if i < 0 then '-' :: Nat.toDigits 10 i.natAbs else Nat.toDigits 10 i.natAbs

/-- How `std::format` shows a file time (src/process.cpp:108-113; clock dependent: `fileTimeText` is that of libstdc++). -/
abbrev TimeFmt := Int → Str

/-- the first part of `is_invalidated` (src/process.cpp:63-79): the retcode file -/
def retcodeCheck (fs : FS) (p : Process) : Option InvalResult :=
  match p.retcodeFile with
  | none => none
  | some f =>
    match fs f with
    | none => some { invalidated := true, log := "no retcode file".toList ++ f }
    | some file =>
      if readInt file.content ≠ 0 then
        some { invalidated := true
               log := "last retcode is nonzero: ".toList ++ showInt (readInt file.content)
                 ++ " in ".toList ++ f }
      else none

/-- `job_traits<process>::is_invalidated` (src/process.cpp:61-115). -/
def Process.isInvalidated (tf : TimeFmt) (fs : FS) (p : Process) : InvalResult :=
  match retcodeCheck fs p with
  | some r => r
  | none =>
    match p.output with
    | [] => { invalidated := true, log := "no output".toList }
    | o :: os =>
      match p.input with
      | [] => { invalidated := (o :: os).all (fun q => (fs q).isSome)
                log := "output existance".toList }
      | i :: is =>
        let oldest := minOf (writeTime fs) o os
        if (fs oldest).isNone then
          { invalidated := true, log := "missing output: ".toList ++ oldest }
        else
          let latest := maxOf (writeTime fs) i is
          { invalidated := decide (writeTime fs oldest ≤ writeTime fs latest)
            log := "oldest output ".toList ++ oldest ++ " t: ".toList ++ tf (writeTime fs oldest)
              ++ " \n latest input ".toList ++ latest ++ " t: ".toList ++ tf (writeTime fs latest) }

/-- `std::error_code` (src/process.cpp:126,150,157); it converts to `true` iff the value is not 0. -/
structure ErrCode where
  value : Int
  noent : Bool
  msg : Str
  deriving DecidableEq, Repr

/-- What the operating system (behind reproc) does during one run (src/process.cpp:126,150,157,170-172). -/
structure POS where
  /-- `process.start` (src/process.cpp:126) -/
  start : ErrCode
  /-- what `drain` passes to the sink, in order: stdout (`true`) or stderr, and the bytes
  (src/process.cpp:139-150) -/
  chunks : List (Bool × Str)
  /-- result of `drain` -/
  drain : ErrCode
  /-- `process.wait` (src/process.cpp:157) -/
  exit : Int
  wait : ErrCode
  /-- what the child (and others) do to the file system meanwhile -/
  effect : FS → FS
  /-- `std::filesystem::remove` throws, with this text -/
  removeFails : Option Str
  /-- the retcode file can be opened for writing (src/process.cpp:171) -/
  canWrite : Bool
  /-- how many more characters the device takes; on a full device the stream only sets its state
  (src/process.cpp:172) -/
  room : Nat
  /-- time of writing the retcode file -/
  now : Int

/-- text shown when the program is not found (src/process.cpp:129-132) -/
def notFoundMsg : Str := "Program not found. Make sure it's available from the PATH.\n".toList

/-- `"cmd: " + format_cmd( p.cmd )` (src/process.cpp:124,165) -/
def Process.shown (p : Process) : Str := "cmd: ".toList ++ formatCmd p.cmd

/-- the sink given to `drain` (src/process.cpp:139-149) -/
def RunResult.sink (r : RunResult) (c : Bool × Str) : RunResult :=
  if c.1 then r.insertStd c.2 else r.insertErr c.2

/-- writing the retcode file (src/process.cpp:169-173); `inl` is the exception of `remove` -/
def writeRetcode (os : POS) (fs : FS) : Option Str → Except Str FS
  | none => .ok fs
  | some f =>
    match os.removeFails with
    | some w => .error w
    | none =>
      if os.canWrite then .ok fun q => if q = f then some ⟨os.now, (showInt os.exit).take os.room⟩ else fs q
      else .ok fun q => if q = f then none else fs q

/-- `job_traits<process>::run` (src/process.cpp:117-176). -/
def Process.run (os : POS) (fs : FS) (p : Process) : JobOut × FS :=
  let res : RunResult := { retcode := none, output := [], log := p.shown }
  if os.start.value ≠ 0 then
    let res := res.insertErr (if os.start.noent then notFoundMsg else os.start.msg)
    (.ret { res with retcode := some os.start.value }, fs)
  else
    let fs := os.effect fs
    let res := os.chunks.foldl RunResult.sink res
    if os.drain.value ≠ 0 then
      (.ret { res.insertErr os.drain.msg with retcode := some os.drain.value }, fs)
    else if os.wait.value ≠ 0 then
      (.ret { res.insertErr os.wait.msg with retcode := some os.wait.value }, fs)
    else
      let res := { res with retcode := some os.exit }
      let res := if os.exit ≠ 0 then { res with output := ⟨.standard, p.shown⟩ :: res.output } else res
      match writeRetcode os fs p.retcodeFile with
      | .error w => (.throwsStd w, fs)
      | .ok fs => (.ret res, fs)

/-- `job<process>` (include/joque/job.hpp:24-46, include/joque/process.hpp:59-69): the file system
`is_invalidated` sees and the one `run` sees. -/
def Process.toJob (tf : TimeFmt) (fsAsk fsRun : FS) (os : POS) (p : Process) : Job :=
  .custom (.answer (p.isInvalidated tf fsAsk)) (p.run os fsRun).1

end Joque
