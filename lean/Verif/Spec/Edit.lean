import Verif.Spec.BuildRun

/-! # Vocabulary for files that are edited during an execution -/

namespace Joque

/-- a file no process writes -/
def IsSource (g : Dag) (proc : Node → Process) (q : Str) : Prop := ∀ m ∈ g.nodes, q ∉ (proc m).writes

/-- `BuildRun`, but sources may be changed by someone else at any moment: they get the current time.
They are not removed. -/
structure EditRun (g : Dag) (outcome : Node → JobOut) (proc : Node → Process) (tr : List Event)
    (clock : Nat → Int) (fs : Nat → FS) : Prop where
  strict : ∀ i j, i < j → clock i < clock j
  old : ∀ q f, fs 0 q = some f → f.time < clock 0
  sources : ∀ n ∈ g.nodes, ∀ q ∈ (proc n).input, IsSource g proc q →
    ∀ i ≤ tr.length, (fs i q).isSome
  change : ∀ i < tr.length, ∀ q, fs (i + 1) q ≠ fs i q →
    (IsSource g proc q ∨ ∃ n, Running (tr.take i) n ∧ q ∈ (proc n).writes) ∧
    ∀ f, fs (i + 1) q = some f → f.time = clock i
  runs : ∀ i n, tr[i]? = some (.jobEnd n) → ∃ (os : POS) (before : FS),
    outcome n = ((proc n).run os before).1 ∧
    (∀ q ∈ (proc n).writes, fs (i + 1) q = ((proc n).run os before).2 q) ∧
    (os.Completed → os.exit = 0 → os.canWrite = true ∧
      ∀ o ∈ (proc n).output, ∃ f, os.effect before o = some f ∧
        ∀ j b, tr[j]? = some (.jobBegin n b) → clock j < f.time)

/-- the source `q` is changed when event `e` of the execution happens -/
def EditedAt (g : Dag) (proc : Node → Process) (tr : List Event) (fs : Nat → FS) (q : Str) (e : Nat) :
    Prop := IsSource g proc q ∧ e < tr.length ∧ fs (e + 1) q ≠ fs e q

end Joque
