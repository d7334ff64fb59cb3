import Verif.Model.Terminal
import Verif.Props.PrintVisitor
import Verif.Props.Throw
import Verif.Props.Deliver
import Verif.Props.Two

/-! # Executions whose output cannot be written -/

namespace Joque

theorem write_append (dev : Nat → Bool) (t : Stream) (a b : Str) :
    t.write dev (a ++ b) = (t.write dev a).write dev b := by
  simp [Stream.write]

theorem write_bad (dev : Nat → Bool) (t : Stream) (a : Str) (h : t.good = false) : t.write dev a = t := by
  induction a with
  | nil => rfl
  | cons c a ih => simpa [Stream.write, Stream.put, h] using ih

/-- what writing a text does -/
theorem write_spec (dev : Nat → Bool) (o s : Str) :
    (Stream.write dev ⟨true, o⟩ s = ⟨true, o ++ s⟩ ∧ ∀ i < s.length, dev (o.length + i) = true) ∨
    ∃ k < s.length, dev (o.length + k) = false ∧ (∀ i < k, dev (o.length + i) = true) ∧
      Stream.write dev ⟨true, o⟩ s = ⟨false, o ++ s.take k⟩ := by
  induction s generalizing o with
  | nil => exact .inl ⟨by simp [Stream.write], by simp⟩
  | cons c s ih =>
    have hw : Stream.write dev ⟨true, o⟩ (c :: s)
        = Stream.write dev (Stream.put dev ⟨true, o⟩ c) s := rfl
    by_cases hd : dev o.length = true
    · have hp : Stream.put dev ⟨true, o⟩ c = ⟨true, o ++ [c]⟩ := by simp [Stream.put, hd]
      rw [hw, hp]
      have hl : (o ++ [c]).length = o.length + 1 := by simp
      rcases ih (o ++ [c]) with ⟨h1, h2⟩ | ⟨k, hk, h1, h2, h3⟩
      · refine .inl ⟨by rw [h1]; simp, ?_⟩
        intro i hi
        cases i with
        | zero => exact hd
        | succ i =>
          have := h2 i (by simpa using hi)
          rw [hl] at this
          rw [← this]; congr 1; omega
      · refine .inr ⟨k + 1, by simpa using hk, ?_, ?_, by rw [h3]; simp⟩
        · rw [hl] at h1; rw [← h1]; congr 1; omega
        · intro i hi
          cases i with
          | zero => exact hd
          | succ i =>
            have := h2 i (by omega)
            rw [hl] at this
            rw [← this]; congr 1; omega
    · have hd' : dev o.length = false := by simpa using hd
      have hp : Stream.put dev ⟨true, o⟩ c = ⟨false, o⟩ := by simp [Stream.put, hd']
      refine .inr ⟨0, by simp, hd', by simp, ?_⟩
      rw [hw, hp, write_bad _ _ _ rfl]
      simp

/-- the text of all callbacks, `text` being that of an item -/
def shownAll (E : VisitEnv) (text : Item → Str) (verbose : Bool) (evs : List Event) : Str :=
  ((Visitor.init verbose).onAll E evs).2.flatMap text

theorem callbacks_silent (E : VisitEnv) (text : Item → Str) (dev : Nat → Bool) (v : Visitor) (t : Stream)
    (k : Nat) (evs : List Event) :
    callbacks E text dev false v t k evs
      = ((v.onAll E evs).1, t.write dev ((v.onAll E evs).2.flatMap text), none) := by
  induction evs generalizing v t k with
  | nil => rfl
  | cons e es ih =>
    simp only [callbacks, Bool.false_and, Bool.false_eq_true, if_false, ih, callWith, Visitor.onAll,
      List.flatMap_append, write_append]

theorem callbacks_bad (E : VisitEnv) (text : Item → Str) (dev : Nat → Bool) (exc : Bool) (v : Visitor)
    (t : Stream) (k : Nat) (evs : List Event) (h : t.good = false) :
    (callbacks E text dev exc v t k evs).2 = (t, none) := by
  induction evs generalizing v k with
  | nil => rfl
  | cons e es ih =>
    simp only [callbacks, callWith, h, Bool.and_false, Bool.false_and, Bool.false_eq_true, if_false,
      write_bad dev t _ h, ih]

theorem callbacks_exc (E : VisitEnv) (text : Item → Str) (dev : Nat → Bool) (v : Visitor)
    (t : Stream) (k : Nat) (evs : List Event) (h : t.good = true) :
    ((t.write dev ((v.onAll E evs).2.flatMap text)).good = true ∧
      callbacks E text dev true v t k evs
        = ((v.onAll E evs).1, t.write dev ((v.onAll E evs).2.flatMap text), none)) ∨
    ∃ i e, evs[i]? = some e ∧ e.isCallback = true ∧
      (t.write dev ((v.onAll E (evs.take (i + 1))).2.flatMap text)).good = false ∧
      callbacks E text dev true v t k evs
        = ((v.onAll E (evs.take (i + 1))).1, t.write dev ((v.onAll E (evs.take (i + 1))).2.flatMap text),
          some (k + i)) := by
  induction evs generalizing v t k with
  | nil => exact .inl ⟨by simpa [Visitor.onAll, Stream.write] using h, rfl⟩
  | cons e es ih =>
    by_cases hg : (callWith E text dev v t e).2.good = true
    · have hc : callbacks E text dev true v t k (e :: es)
          = callbacks E text dev true (v.on E e).1 (t.write dev ((v.on E e).2.flatMap text)) (k + 1) es := by
        simp only [callbacks]
        rw [if_neg (by simp [hg])]
        rfl
      rw [hc]
      rcases ih (v.on E e).1 (t.write dev ((v.on E e).2.flatMap text)) (k + 1) hg with
        ⟨h1, h2⟩ | ⟨i, e', h1, h2, h3, h4⟩
      · refine .inl ⟨?_, ?_⟩
        · simpa [Visitor.onAll, write_append] using h1
        · rw [h2]; simp [Visitor.onAll, write_append]
      · refine .inr ⟨i + 1, e', by simpa using h1, h2, ?_, ?_⟩
        · simpa [Visitor.onAll, write_append] using h3
        · rw [h4]
          simp [Visitor.onAll, write_append]
          omega
    · have hg' : (t.write dev ((v.on E e).2.flatMap text)).good = false := by
        simpa [callWith] using hg
      refine .inr ⟨0, e, rfl, ?_, ?_, ?_⟩
      · cases e <;> simp only [Event.isCallback] <;>
          (simp [Visitor.on, Stream.write, h] at hg')
      · simpa [Visitor.onAll] using hg'
      · simp only [callbacks]
        rw [if_pos (by simp [hg, h])]
        simp [Visitor.onAll, callWith]

theorem term_snoc (C : Cfg) (E : VisitEnv) (text : Item → Str) (dev : Nat → Bool) (exc verbose : Bool)
    (ms : List Move) (m : Move) : TermSt.exec C E text dev exc verbose (ms ++ [m])
      = TermSt.step C E text dev exc (TermSt.exec C E text dev exc verbose ms) m := by
  simp [TermSt.exec]

/-- **C112**, part 1.  By default an execution does not notice that its output cannot be written: whatever
the device does, it is the execution it would be otherwise, and what was written is what would be written
otherwise, up to the first character the device refused – nothing after it. -/
theorem C112_silent (C : Cfg) (E : VisitEnv) (text : Item → Str) (dev : Nat → Bool) (verbose : Bool)
    (ms : List Move) :
    (TermSt.exec C E text dev false verbose ms).s = exec C ms ∧
    (((TermSt.exec C E text dev false verbose ms).t.out = shownAll E text verbose (exec C ms).trace ∧
      ∀ i < (shownAll E text verbose (exec C ms).trace).length, dev i = true) ∨
     ∃ k < (shownAll E text verbose (exec C ms).trace).length, dev k = false ∧ (∀ i < k, dev i = true) ∧
      (TermSt.exec C E text dev false verbose ms).t.out
        = (shownAll E text verbose (exec C ms).trace).take k) := by
  have key : (TermSt.exec C E text dev false verbose ms).s = exec C ms ∧
      (TermSt.exec C E text dev false verbose ms).v
        = ((Visitor.init verbose).onAll E (exec C ms).trace).1 ∧
      (TermSt.exec C E text dev false verbose ms).t
        = Stream.write dev ⟨true, []⟩ (shownAll E text verbose (exec C ms).trace) := by
    induction ms using List.reverseRecOn with
    | nil => exact ⟨rfl, rfl, rfl⟩
    | append_singleton ms m ih =>
      obtain ⟨h1, h2, h3⟩ := ih
      rw [term_snoc, exec_snoc]
      simp only [TermSt.step, callbacks_silent, h1, h2, h3]
      have hd := step_grows C (exec C ms) m
      refine ⟨trivial, ?_, ?_⟩
      · conv_rhs => rw [hd, onAll_append]
      · rw [← write_append]
        congr 1
        unfold shownAll
        conv_rhs => rw [hd, onAll_append, List.flatMap_append]
  refine ⟨key.1, ?_⟩
  rw [key.2.2]
  rcases write_spec dev [] (shownAll E text verbose (exec C ms).trace) with ⟨h1, h2⟩ | ⟨k, hk, h1, h2, h3⟩
  · exact .inl ⟨by rw [h1]; rfl, by simpa using h2⟩
  · exact .inr ⟨k, hk, by simpa using h1, by simpa using h2, by rw [h3]; rfl⟩

/-- **C112**, part 2.  If the program asked for exceptions, the execution is the same as long as everything
can be written.  From the first failure on it is one in which that callback threw (C64): it does not end
successfully, `result()` throws, and nothing more is written. -/
theorem C112_exceptions (C : Cfg) (hwf : C.dag.WF) (E : VisitEnv) (text : Item → Str) (dev : Nat → Bool)
    (verbose : Bool) (ms : List Move) (hno : .ctlFail ∉ ms ∧ ∀ f, .fault f ∉ ms) :
    ((TermSt.exec C E text dev true verbose ms).s = exec C ms ∧
      (TermSt.exec C E text dev true verbose ms).t.out = shownAll E text verbose (exec C ms).trace ∧
      ∀ i < (shownAll E text verbose (exec C ms).trace).length, dev i = true) ∨
    ∃ a k b j, ms = a ++ .ctl :: b ∧
      (TermSt.exec C E text dev true verbose ms).s = exec C (a ++ .visThrow k :: b) ∧
      (exec C (a ++ [.visThrow k])).phase = .unwinding .visitor ∧
      (exec C (a ++ .visThrow k :: b)).phase ≠ .finished ∧
      (∀ x, (exec C (a ++ .visThrow k :: b)).phase = .threw x → x = .visitor) ∧
      j < (shownAll E text verbose (exec C (a ++ [.visThrow k])).trace).length ∧ dev j = false ∧
      (∀ i < j, dev i = true) ∧
      (TermSt.exec C E text dev true verbose ms).t.out
        = (shownAll E text verbose (exec C (a ++ [.visThrow k])).trace).take j := by
  have key : ((TermSt.exec C E text dev true verbose ms).t.good = true ∧
        (TermSt.exec C E text dev true verbose ms).s = exec C ms ∧
        (TermSt.exec C E text dev true verbose ms).v
          = ((Visitor.init verbose).onAll E (exec C ms).trace).1 ∧
        (TermSt.exec C E text dev true verbose ms).t
          = Stream.write dev ⟨true, []⟩ (shownAll E text verbose (exec C ms).trace)) ∨
      ∃ a k b, ms = a ++ .ctl :: b ∧ (TermSt.exec C E text dev true verbose ms).t.good = false ∧
        (TermSt.exec C E text dev true verbose ms).s = exec C (a ++ .visThrow k :: b) ∧
        (exec C (a ++ [.visThrow k])).phase = .unwinding .visitor ∧
        (TermSt.exec C E text dev true verbose ms).t
          = Stream.write dev ⟨true, []⟩ (shownAll E text verbose (exec C (a ++ [.visThrow k])).trace) := by
    induction ms using List.reverseRecOn with
    | nil => exact .inl ⟨rfl, rfl, rfl, rfl⟩
    | append_singleton ms m ih =>
      have hno' : .ctlFail ∉ ms ∧ ∀ f, .fault f ∉ ms :=
        ⟨fun h => hno.1 (by simp [h]), fun f h => hno.2 f (by simp [h])⟩
      rw [term_snoc]
      rcases ih hno' with ⟨hg, h1, h2, h3⟩ | ⟨a, k, b, rfl, hg, h1, h2, h3⟩
      · rw [exec_snoc]
        have hd := step_grows C (exec C ms) m
        rcases callbacks_exc E text dev ((Visitor.init verbose).onAll E (exec C ms).trace).1
          (Stream.write dev ⟨true, []⟩ (shownAll E text verbose (exec C ms).trace)) 0
          ((step C (exec C ms) m).trace.drop (exec C ms).trace.length) (by rw [← h3]; exact hg) with
          ⟨c1, c2⟩ | ⟨i, e, c1, c2, c3, c4⟩
        · left
          simp only [TermSt.step, h1, h2, h3, c2]
          refine ⟨c1, trivial, ?_, ?_⟩
          · conv_rhs => rw [hd, onAll_append]
          · rw [← write_append]
            congr 1
            unfold shownAll
            conv_rhs => rw [hd, onAll_append, List.flatMap_append]
        · right
          have hm : m = .ctl := by
            have hem : e ∈ (step C (exec C ms) m).trace.drop (exec C ms).trace.length :=
              List.mem_of_getElem? c1
            have hworker : ∀ n, (m = .begin n ∨ m = .finish n) → False := by
              rintro n (rfl | rfl) <;>
              · simp only [step] at hem
                split at hem
                · simp at hem
                · split at hem
                  · simp [St.emit] at hem
                    subst hem
                    simp [Event.isCallback] at c2
                  · simp at hem
            cases m with
            | ctl => rfl
            | ctlFail => exact absurd (by simp) hno.1
            | fault f => exact absurd (by simp) (hno.2 f)
            | begin n => exact (hworker n (.inl rfl)).elim
            | finish n => exact (hworker n (.inr rfl)).elim
            | destroy =>
              simp only [step, destroyStep] at hem
              split at hem <;> simp at hem
          subst hm
          have hn : NextEvents C ms ((step C (exec C ms) .ctl).trace.drop (exec C ms).trace.length) := by
            unfold NextEvents; rw [exec_snoc]; exact hd
          obtain ⟨p1, p2⟩ := C64_thrown C hwf ms _ i e hn c1 c2
          refine ⟨ms, i, [], rfl, ?_, ?_, p1, ?_⟩
          · simp only [TermSt.step, h1, h2, h3, c4]
            exact c3
          · simp only [TermSt.step, h1, h2, h3, c4, Nat.zero_add]
            rw [exec_snoc]
          · simp only [TermSt.step, h1, h2, h3, c4]
            rw [← write_append]
            congr 1
            unfold shownAll
            rw [p2, onAll_append, List.flatMap_append]
      · right
        refine ⟨a, k, b ++ [m], by simp, ?_, ?_, h2, ?_⟩
        · simp only [TermSt.step, callbacks_bad _ _ _ _ _ _ _ _ hg]
          exact hg
        · simp only [TermSt.step, callbacks_bad _ _ _ _ _ _ _ _ hg, h1]
          rw [← exec_snoc]; simp
        · simp only [TermSt.step, callbacks_bad _ _ _ _ _ _ _ _ hg]
          exact h3
  rcases key with ⟨hg, h1, _, h3⟩ | ⟨a, k, b, hms, hg, h1, h2, h3⟩
  · left
    rcases write_spec dev [] (shownAll E text verbose (exec C ms).trace) with ⟨w1, w2⟩ | ⟨k, _, _, _, w⟩
    · exact ⟨h1, by rw [h3, w1]; rfl, by simpa using w2⟩
    · rw [h3, w] at hg; cases hg
  · right
    have hnew := C64_nothing_new C hwf (a ++ [.visThrow k]) b h2
    rw [List.append_assoc, List.singleton_append] at hnew
    rcases write_spec dev [] (shownAll E text verbose (exec C (a ++ [.visThrow k])).trace) with
      ⟨w1, _⟩ | ⟨j, hj, w1, w2, w3⟩
    · rw [h3, w1] at hg; cases hg
    · exact ⟨a, k, b, j, hms, h1, h2, hnew.1, hnew.2.1, hj, by simpa using w1, by simpa using w2,
        by rw [h3, w3]; rfl⟩

/-- with the texts of `Model/PrintVisitor`, at a fixed time of day -/
theorem shownAll_stdout (E : VisitEnv) (T : TextEnv) (hms : Str) (verbose : Bool) (evs : List Event) (x : Str)
    (h : stdoutOf T ((((Visitor.init verbose).onAll E evs).2).map (Prod.mk hms)) = some x) :
    shownAll E (fun i => (i.stdout T hms).getD []) verbose evs = x := by
  unfold shownAll
  generalize ((Visitor.init verbose).onAll E evs).2 = l at *
  induction l generalizing x with
  | nil => simpa [stdoutOf] using h
  | cons i l ih =>
    simp only [List.map_cons, stdoutOf, Option.bind_eq_some_iff, Option.map_eq_some_iff] at h
    obtain ⟨a, h1, b, h2, rfl⟩ := h
    rw [List.flatMap_cons, ih b h2, h1]
    rfl

/-! ## Examples -/

namespace Ex

/-- short texts -/
def tText : Item → Str
  | .status _ n => List.replicate n 'x'
  | .runEnd _ r => r.name ++ ['\n']
  | _ => ['.']

def tEnv : VisitEnv := { hidden := fun _ => false, task := fun n => n, hasJob := fun _ => true }

end Ex

/-- the terminal goes away after 10 characters: these were written, and the execution ends as it would -/
example : (TermSt.exec (Ex.cfg 0) Ex.tEnv Ex.tText (· < 10) false false Ex.done0).s.phase = .finished ∧
    (TermSt.exec (Ex.cfg 0) Ex.tEnv Ex.tText (· < 10) false false Ex.done0).t
      = ⟨false, (shownAll Ex.tEnv Ex.tText false (exec (Ex.cfg 0) Ex.done0).trace).take 10⟩ ∧
    10 < (shownAll Ex.tEnv Ex.tText false (exec (Ex.cfg 0) Ex.done0).trace).length := by
  decide +kernel

/-- with exceptions: the execution is left -/
example : (TermSt.exec (Ex.cfg 0) Ex.tEnv Ex.tText (· < 10) true false (List.replicate 13 .ctl)).s.phase
      = .threw .visitor ∧
    (TermSt.exec (Ex.cfg 0) Ex.tEnv Ex.tText (· < 10) true false (List.replicate 13 .ctl)).t.good = false ∧
    (exec (Ex.cfg 0) (List.replicate 13 .ctl)).phase.active = true := by
  decide +kernel

end Joque
