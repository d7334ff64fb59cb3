import Verif.Model.Look

/-! # Vocabulary for a changing file system -/

namespace Joque

/-- nothing changes and no query fails: always the file system `fs` -/
structure Still (e : QEnv) (fs : FS) : Prop where
  files : ∀ k p, e.files k p = .ok (fs p)
  readable : ∀ k p, e.readable k p = true

/-- between query `k` and query `k'`, something went wrong with one of `ps`, with text `w`: a query
failed, or the file was there at one query and missing at the next -/
def Disturbed (e : QEnv) (k k' : Nat) (ps : List Str) (w : Str) : Prop :=
  ∃ j, k ≤ j ∧ j < k' ∧ ∃ p ∈ ps, e.files j p = .error w ∨
    (w = e.gone p ∧ e.files j p = .ok none ∧
      ∃ i, i + 1 = j ∧ k ≤ i ∧ ∃ f, e.files i p = .ok (some f))

/-- the file times of `p` at query `k` -/
def QEnv.time (e : QEnv) (k : Nat) (p : Str) : Int :=
  match e.files k p with
  | .ok (some f) => f.time
  | _ => 0

/-- the file `q` is there at all queries from `k` on -/
def QEnv.stays (e : QEnv) (k : Nat) (q : Str) : Prop :=
  ∀ j, k ≤ j → ∃ f, e.files j q = .ok (some f)

/-- From query `k` on, nobody writes the outputs of `p`, and its inputs are only ever made newer. -/
structure InputsGrow (e : QEnv) (k : Nat) (p : Process) : Prop where
  outThere : ∀ o ∈ p.output, e.stays k o
  inThere : ∀ i ∈ p.input, e.stays k i
  outSame : ∀ o ∈ p.output, ∀ j, k ≤ j → e.time j o = e.time k o
  inNewer : ∀ i ∈ p.input, ∀ j, k ≤ j → e.time j i ≤ e.time (j + 1) i

/-- the answer without its explanation -/
def InvalOut.flag : InvalOut → Option Bool
  | .answer r => some r.invalidated
  | .throws _ => none

/-- the files `is_invalidated` may look at -/
def Process.files (p : Process) : List Str := p.retcodeFile.toList ++ p.output ++ p.input

end Joque
