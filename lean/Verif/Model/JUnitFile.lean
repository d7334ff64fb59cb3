import Verif.Model.JUnit

/-! # JUnit report to a file (src/junit.cpp:51-58) -/

namespace Joque

/-- What a `std::ofstream` meets (src/junit.cpp:56-57): the contents of the files, the paths that can
be opened for writing, and how many more characters the device takes.  A stream whose file cannot be
opened, or whose device is full, only sets its state; nothing is thrown unless asked for with
`exceptions`, which joque does not. -/
structure Disk where
  file : Str → Option Str
  canOpen : Str → Bool
  room : Nat

/-- `std::ofstream of{p}` (src/junit.cpp:56): an existing file is emptied, another is created. -/
def Disk.openOut (d : Disk) (p : Str) : Disk :=
  if d.canOpen p then { d with file := fun q => if q = p then some [] else d.file q } else d

/-- Everything written to the stream, and its destructor (src/junit.cpp:57-58).  The stream stops at
the first character the device does not take. -/
def Disk.write (d : Disk) (p text : Str) : Disk :=
  if d.canOpen p then
    { d with
      file := fun q => if q = p then some (((d.file p).getD []) ++ text.take d.room) else d.file q
      room := d.room - text.length }
  else d

/-- `generate_junit_xml` for a path (src/junit.cpp:51-58); `none`: undefined behaviour (in
`runtime_sum`, when the file is open already). -/
def junitToPath (d : Disk) (p : Str) (clock : Nat → Int) (secs : RunRecord → Str) (stamp tsName : Str)
    (er : ExecRecord) : Option Disk :=
  (junitXml clock secs stamp tsName er).map ((d.openOut p).write p)

end Joque
