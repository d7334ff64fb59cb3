import Verif.Spec.Crash

/-!
# What a build should leave in its files

The processes of a project are programs that make the contents of their outputs from the contents of
their inputs.
-/

namespace Joque

/-- the text in a file -/
def text (fs : FS) (q : Str) : Option Str := (fs q).map PFile.content

/-- What the processes make: from the texts of the inputs, the text of each output. -/
abbrev Recipe := Process → (Str → Option Str) → Str → Str

/-- a process reads only the inputs it declares -/
def Recipe.Declared (R : Recipe) : Prop :=
  ∀ p ins ins', (∀ q ∈ p.input, ins q = ins' q) → R p ins = R p ins'

/-- the outputs of `p` are what it makes of its inputs as they are now -/
def Current (R : Recipe) (fs : FS) (p : Process) : Prop :=
  ∀ o ∈ p.output, text fs o = some (R p (text fs) o)

/-- A project: the processes a program may execute, all together or in part.  No file is written by two
of them. -/
structure Project (P : Process → Prop) : Prop where
  disjoint : ∀ p p', P p → P p' → p ≠ p' → ∀ q ∈ p.writes, q ∉ p'.writes
  hasInput : ∀ p, P p → p.input ≠ []
  hasOutput : ∀ p, P p → p.output ≠ []

/-- whatever process seems to be up to date (and has its inputs) is -/
def Trusted (P : Process → Prop) (R : Recipe) (tf : TimeFmt) (fs : FS) : Prop :=
  ∀ p, P p → (p.isInvalidated tf fs).invalidated = false → (∀ i ∈ p.input, (fs i).isSome) →
    Current R fs p

/-- no process writes it -/
def Handwritten (P : Process → Prop) (q : Str) : Prop := ∀ p, P p → q ∉ p.writes

/-- The dag `g` executes processes of the project, each once, and with a process those that make its
inputs. -/
structure PartOf (P : Process → Prop) (g : Dag) (proc : Node → Process) : Prop where
  procs : ∀ n ∈ g.nodes, P (proc n)
  once : ∀ n ∈ g.nodes, ∀ m ∈ g.nodes, proc n = proc m → n = m
  makers : ∀ n ∈ g.nodes, ∀ q ∈ (proc n).input, ∀ p, P p → q ∈ p.writes →
    ∃ m ∈ g.nodes, proc m = p

/-- The children that succeed in this part of an execution follow the recipe: each input was read at some
moment between begin and end of the job, and the outputs are what the recipe makes of it. -/
def Follows (R : Recipe) (outcome : Node → JobOut) (proc : Node → Process) (tr : List Event)
    (fs : Nat → FS) : Prop :=
  ∀ (j e : Nat) (n : Node) (b : Bool), tr[j]? = some (.jobBegin n b) → tr[e]? = some (.jobEnd n) →
    (∃ r, outcome n = .ret r ∧ r.retcode = some 0) →
    ∃ reads : Str → Option Str,
      (∀ q ∈ (proc n).input, ∃ k, j < k ∧ k ≤ e ∧ reads q = text (fs k) q) ∧
      ∀ o ∈ (proc n).output, text (fs (e + 1)) o = some (R (proc n) reads o)

/-- One execution, up to some moment, possibly interrupted there: it finds the files `before` and leaves
the files `after`, all of them from before `now`. -/
structure Building (P : Process → Prop) (R : Recipe) (tf : TimeFmt) (C : Cfg) (ms : List Move)
    (tr : List Event) (proc : Node → Process) (clock : Nat → Int) (fs : Nat → FS) (after : FS)
    (now : Int) : Prop where
  wf : C.dag.WF
  part : PartOf P C.dag proc
  plan : Plan C.dag proc
  history : tr <+: (exec C ms).trace
  asks : AsksAt C proc tf (fs 0)
  run : BuildRun C.dag C.outcome proc tr clock fs
  follows : Follows R C.outcome proc tr fs
  /-- what the interruption leaves -/
  left : CrashFS proc tr (fs tr.length) after
  /-- also files written meanwhile have the current time -/
  late : ∀ q f, after q ≠ fs tr.length q → after q = some f → clock tr.length ≤ f.time
  past : ∀ q f, after q = some f → f.time < now

/-- A process that was begun and has not succeeded is known by its retcode file, or has left its files
alone. -/
def FailuresShow (outcome : Node → JobOut) (proc : Node → Process) (tr : List Event) (before after : FS) :
    Prop :=
  ∀ n, JobBegan tr n → ¬ Succeeded tr outcome n →
    ¬ RetcodeOk after (proc n) ∨ ∀ q ∈ (proc n).writes, after q = before q

/-- The files of a project at the time `now`, after any number of edits, removals and executions.  Edits
change files that no process writes and give them the current time.  -/
inductive Reached (P : Process → Prop) (R : Recipe) (tf : TimeFmt) : FS → Int → Prop where
  /-- a fresh checkout: nothing is made yet -/
  | fresh {fs : FS} {now : Int} (hout : ∀ p, P p → ∀ o ∈ p.output, fs o = none)
      (hold : ∀ q f, fs q = some f → f.time < now) : Reached P R tf fs now
  /-- someone writes or removes files that no process writes -/
  | edit {fs fs' : FS} {now now' : Int} (h : Reached P R tf fs now) (hnow : now ≤ now')
      (hchg : ∀ q, fs' q ≠ fs q → Handwritten P q ∧ ∀ f, fs' q = some f → now ≤ f.time ∧ f.time < now') :
      Reached P R tf fs' now'
  /-- someone removes, for each process, either no output, or all, or some files with the retcode file -/
  | remove {fs fs' : FS} {now : Int} (h : Reached P R tf fs now)
      (hrm : ∀ q, fs' q ≠ fs q → fs' q = none)
      (hall : ∀ p, P p → (∀ o ∈ p.output, fs' o = fs o) ∨ (∀ o ∈ p.output, fs' o = none) ∨
        ¬ RetcodeOk fs' p) : Reached P R tf fs' now
  /-- an execution, with any number of threads, complete or interrupted, successful or not -/
  | build {C : Cfg} {ms : List Move} {tr : List Event} {proc : Node → Process} {clock : Nat → Int}
      {fs : Nat → FS} {after : FS} {now now' : Int} (h : Reached P R tf (fs 0) now) (hnow : now ≤ clock 0)
      (hb : Building P R tf C ms tr proc clock fs after now')
      (hf : FailuresShow C.outcome proc tr (fs 0) after) : Reached P R tf after now'

end Joque
