import Verif.Model.Process

/-! # Vocabulary for subprocess jobs -/

namespace Joque

/-- `a` was written not after `b` -/
def NotNewer (fs : FS) (a b : Str) : Prop :=
  ∃ fa fb, fs a = some fa ∧ fs b = some fb ∧ fa.time ≤ fb.time

/-- the retcode file, if one is used, is there and records success -/
def RetcodeOk (fs : FS) (p : Process) : Prop :=
  ∀ f, p.retcodeFile = some f → ∃ file, fs f = some file ∧ readInt file.content = 0

/-- the epoch of the file clock is after all file times (libstdc++) -/
def EpochAfter (fs : FS) : Prop := ∀ q f, fs q = some f → f.time < 0

/-- the epoch of the file clock is before all file times -/
def EpochBefore (fs : FS) : Prop := ∀ q f, fs q = some f → 0 < f.time

/-- the child was started, its output read and its exit code obtained -/
def POS.Completed (os : POS) : Prop := os.start.value = 0 ∧ os.drain.value = 0 ∧ os.wait.value = 0

/-- the retcode file could be written: opened, and room for the exit code on the device -/
def POS.Stored (os : POS) : Prop := os.canWrite = true ∧ (showInt os.exit).length ≤ os.room

/-- the retcode file was opened, but the device is full before a digit of the exit code is stored -/
def POS.Torn (os : POS) : Prop := os.canWrite = true ∧ (os.room = 0 ∨ os.room = 1 ∧ os.exit < 0)

/-- `int` -/
def IsInt (i : Int) : Prop := -2147483648 ≤ i ∧ i ≤ 2147483647

/-- what the child wrote, with stream tags -/
def written (cs : List (Bool × Str)) : List Chunk :=
  cs.map fun c => ⟨if c.1 then .standard else .error, c.2⟩

/-- the text of an argument -/
def PArg.text : PArg → Str
  | .out p => p
  | .path p => p
  | .other s => s

end Joque
