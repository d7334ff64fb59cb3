import Verif.Model.Process

/-!
# The program dies inside `run` of a process (src/process.cpp:117-176)
-/

namespace Joque

/-- A moment in `job_traits<process>::run` (src/process.cpp:117-176). -/
inductive CrashPoint where
  /-- the child is not started yet (src/process.cpp:119-126) -/
  | unstarted
  /-- the child is executing, and has left this file system so far (src/process.cpp:126-158) -/
  | child (mid : FS)
  /-- the child has exited (src/process.cpp:158-169) -/
  | exited
  /-- the old retcode file is removed (src/process.cpp:170) -/
  | removed
  /-- the new one is opened, which truncates it, and holds this many characters (src/process.cpp:171-172;
  the stream passes them on when it is destroyed, in one or several portions) -/
  | opened (k : Nat)

/-- The file system found afterwards (src/process.cpp:126,150,157,170-172 are the calls that change it). -/
def Process.crashFS (os : POS) (fs : FS) (p : Process) : CrashPoint → FS
  | .unstarted => fs
  | .child mid => mid
  | .exited => os.effect fs
  | .removed => fun q => if p.retcodeFile = some q then none else os.effect fs q
  | .opened k => fun q =>
    if p.retcodeFile = some q then some ⟨os.now, (showInt os.exit).take k⟩ else os.effect fs q

end Joque
