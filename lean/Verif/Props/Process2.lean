import Verif.Props.Process

/-! # C72: the explanation given with the answer -/

namespace Joque

/-- `t` is the time of the file `q`, or the epoch if it is missing -/
def TimeOr0 (fs : FS) (q : Str) (t : Int) : Prop :=
  (∃ f, fs q = some f ∧ t = f.time) ∨ (fs q = none ∧ t = 0)

theorem timeOr0_iff {fs : FS} {q : Str} {t : Int} : TimeOr0 fs q t ↔ t = writeTime fs q := by
  unfold TimeOr0
  cases h : fs q with
  | none => rw [writeTime_none h]; simp
  | some f => rw [writeTime_some h]; simp

/-- why a process is or is not considered out of date -/
inductive WhyStale where
  /-- the retcode file `f` is missing -/
  | noRetcode (f : Str)
  /-- the retcode file `f` holds `i` -/
  | lastFailed (i : Int) (f : Str)
  /-- no outputs are declared -/
  | noOutput
  /-- no inputs are declared; all outputs exist or not -/
  | outputs (all : Bool)
  /-- output `o` is missing -/
  | missing (o : Str)
  /-- the oldest output and the latest input with their times -/
  | times (o : Str) (to : Int) (i : Str) (ti : Int)

/-- what `is_invalidated` returns for a reason -/
def WhyStale.result (tf : TimeFmt) : WhyStale → InvalResult
  | .noRetcode f => ⟨true, "no retcode file".toList ++ f⟩
  | .lastFailed i f => ⟨true, "last retcode is nonzero: ".toList ++ showInt i ++ " in ".toList ++ f⟩
  | .noOutput => ⟨true, "no output".toList⟩
  | .outputs b => ⟨b, "output existance".toList⟩
  | .missing o => ⟨true, "missing output: ".toList ++ o⟩
  | .times o to i ti => ⟨decide (to ≤ ti), "oldest output ".toList ++ o ++ " t: ".toList ++ tf to
      ++ " \n latest input ".toList ++ i ++ " t: ".toList ++ tf ti⟩

/-- the reason holds -/
def WhyStale.True (fs : FS) (p : Process) : WhyStale → Prop
  | .noRetcode f => p.retcodeFile = some f ∧ fs f = none
  | .lastFailed i f => p.retcodeFile = some f ∧ i ≠ 0 ∧ ∃ file, fs f = some file ∧ readInt file.content = i
  | .noOutput => RetcodeOk fs p ∧ p.output = []
  | .outputs b => RetcodeOk fs p ∧ p.output ≠ [] ∧ p.input = [] ∧
      (b = true ↔ ∀ o ∈ p.output, fs o ≠ none)
  | .missing o => RetcodeOk fs p ∧ p.input ≠ [] ∧ o ∈ p.output ∧ fs o = none
  | .times o to i ti => RetcodeOk fs p ∧ o ∈ p.output ∧ i ∈ p.input ∧ fs o ≠ none ∧
      TimeOr0 fs o to ∧ TimeOr0 fs i ti ∧
      (∀ o' ∈ p.output, ∀ t, TimeOr0 fs o' t → to ≤ t) ∧ ∀ i' ∈ p.input, ∀ t, TimeOr0 fs i' t → t ≤ ti

theorem retcodeOk_of_none {fs : FS} {p : Process} (h : retcodeCheck fs p = none) : RetcodeOk fs p := by
  intro f hf
  unfold retcodeCheck at h
  rw [hf] at h
  dsimp only at h
  cases hg : fs f with
  | none => rw [hg] at h; cases h
  | some file =>
    rw [hg] at h
    dsimp only at h
    refine ⟨file, rfl, ?_⟩
    rcases Classical.em (readInt file.content = 0) with h0 | h0
    · exact h0
    · rw [if_pos h0] at h; cases h

/-- **C72**: the answer and its explanation are those of a reason that holds. -/
theorem C72_explained (tf : TimeFmt) (fs : FS) (p : Process) :
    ∃ r : WhyStale, r.True fs p ∧ p.isInvalidated tf fs = r.result tf := by
  unfold Process.isInvalidated
  cases hr : retcodeCheck fs p with
  | some r =>
    dsimp only
    unfold retcodeCheck at hr
    cases hf : p.retcodeFile with
    | none => rw [hf] at hr; cases hr
    | some f =>
      rw [hf] at hr
      dsimp only at hr
      cases hg : fs f with
      | none => rw [hg] at hr; cases hr; exact ⟨.noRetcode f, ⟨hf, hg⟩, rfl⟩
      | some file =>
        rw [hg] at hr
        dsimp only at hr
        split at hr
        · rename_i hne
          cases hr
          exact ⟨.lastFailed _ f, ⟨hf, hne, file, hg, rfl⟩, rfl⟩
        · cases hr
  | none =>
    have hok := retcodeOk_of_none hr
    dsimp only
    cases ho : p.output with
    | nil => exact ⟨.noOutput, ⟨hok, ho⟩, rfl⟩
    | cons o os =>
      cases hi : p.input with
      | nil =>
        refine ⟨.outputs _, ⟨hok, by rw [ho]; exact List.cons_ne_nil _ _, hi, ?_⟩, rfl⟩
        rw [List.all_eq_true, ho]
        exact forall_congr' fun q => imp_congr_right fun _ => Option.isSome_iff_ne_none
      | cons i is =>
        dsimp only
        obtain ⟨m1, m2⟩ := minOf_spec (writeTime fs) o os
        obtain ⟨l1, l2⟩ := maxOf_spec (writeTime fs) i is
        cases hm : fs (minOf (writeTime fs) o os) with
        | none =>
          exact ⟨.missing _, ⟨hok, by rw [hi]; exact List.cons_ne_nil _ _, by rw [ho]; exact m1, hm⟩, rfl⟩
        | some f =>
          refine ⟨.times (minOf (writeTime fs) o os) _ (maxOf (writeTime fs) i is) _,
            ⟨hok, by rw [ho]; exact m1, by rw [hi]; exact l1, by rw [hm]; exact Option.some_ne_none _,
              timeOr0_iff.2 rfl, timeOr0_iff.2 rfl, ?_, ?_⟩, rfl⟩
          · rw [ho]
            intro o' ho' t ht
            rw [timeOr0_iff.1 ht]
            exact m2 o' ho'
          · rw [hi]
            intro i' hi' t ht
            rw [timeOr0_iff.1 ht]
            exact l2 i' hi'

/-- the texts -/
example :
    let fs : FS := fun q => if q = ['a'] then some ⟨-3, []⟩ else if q = ['r'] then some ⟨0, ['7']⟩ else none
    let tf : TimeFmt := showInt
    let p : Process := { cmd := [], input := [['a']], output := [['b']], retcodeFile := none }
    (p.isInvalidated tf fs).log = "missing output: b".toList ∧
    ({ p with output := [['a']] }.isInvalidated tf fs).log =
      "oldest output a t: -3 \n latest input a t: -3".toList ∧
    ({ p with retcodeFile := some ['r'] }.isInvalidated tf fs).log =
      "last retcode is nonzero: 7 in r".toList ∧
    ({ p with retcodeFile := some ['s'] }.isInvalidated tf fs).log = "no retcode files".toList := by
  decide +kernel

end Joque
