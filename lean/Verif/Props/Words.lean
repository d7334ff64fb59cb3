import Verif.Props.Process
import Verif.Props.Programs
import Verif.Props.PrintVisitor

/-!
# Exact texts and numbers

C36 what is read from a retcode file, C37 messages of a process that could not be run, C48 the words, C75
the lines shown for the tasks of example.cpp.
-/

namespace Joque

/-- **C48**, the words. -/
theorem C48_words :
    (∀ s : Status, s.name = match s with
      | .ok => "OK".toList | .skip => "SKIP".toList | .depf => "DEPF".toList | .fail => "FAIL".toList) ∧
    (∀ k : EKind, k.name = match k with
      | .after => "after".toList | .invalidatedBy => "invalidated by".toList
      | .requires => "requires".toList) ∧
    ∀ i : Inval, i.name = match i with
      | .valid => "valid".toList | .invalid => "invalid".toList | .unknown => "unknown".toList := by
  refine ⟨?_, ?_, ?_⟩
  · intro a; cases a <;> decide +kernel
  · intro a; cases a <;> decide +kernel
  · intro a; cases a <;> decide +kernel

/-- white space, a sign or none, digits: how they are found -/
theorem num_parse (ws sign ds rest : Str)
    (hws : ∀ c ∈ ws, c ∈ [' ', '\t', '\n', '\x0b', '\x0c', '\r'])
    (hsign : sign ∈ [[], ['+'], ['-']]) (hds : ∀ c ∈ ds, c.isDigit = true)
    (hrest : ∀ c, rest.head? = some c → c.isDigit = false ∧
      (ds = [] → sign = [] → isWs c = false ∧ c ≠ '+' ∧ c ≠ '-')) :
    let s := (ws ++ sign ++ ds ++ rest).dropWhile isWs
    (s.head? = some '-' ↔ sign = ['-']) ∧
    (if s.head? = some '-' ∨ s.head? = some '+' then s.tail else s).takeWhile Char.isDigit = ds := by
  have htake : (ds ++ rest).takeWhile Char.isDigit = ds := by
    rw [List.takeWhile_append, takeWhile_all hds, if_pos rfl]
    cases rest with
    | nil => simp
    | cons c cs => rw [List.takeWhile_cons_of_neg (by simp [(hrest c rfl).1])]; simp
  have hdrop : ∀ t : Str, (∀ c, t.head? = some c → isWs c = false) →
      (ws ++ t).dropWhile isWs = t := by
    intro t ht
    rw [List.dropWhile_append, if_pos]
    · cases t with
      | nil => rfl
      | cons c cs => rw [List.dropWhile_cons_of_neg (by simp [ht c rfl])]
    · have : ∀ l : Str, (∀ c ∈ l, isWs c = true) → l.dropWhile isWs = [] := by
        intro l
        induction l with
        | nil => intro _; rfl
        | cons c cs ih =>
          intro hl
          rw [List.dropWhile_cons_of_pos (hl c (by simp))]
          exact ih fun x hx => hl x (by simp [hx])
      rw [this ws fun c hc => ws_of_mem (hws c hc)]; rfl
  have hhead : sign = [] → ∀ c, (ds ++ rest).head? = some c → isWs c = false ∧ c ≠ '+' ∧ c ≠ '-' := by
    intro hs c hc
    cases ds with
    | nil => exact (hrest c hc).2 rfl hs
    | cons d ds' =>
      cases hc
      have hd := hds c (by simp)
      refine ⟨isDigit_not_ws hd, ?_, ?_⟩ <;> rintro rfl <;> revert hd <;> decide
  dsimp only
  rw [List.append_assoc, List.append_assoc]
  simp only [List.mem_cons, List.not_mem_nil, or_false] at hsign
  rcases hsign with rfl | rfl | rfl
  · rw [List.nil_append, hdrop _ fun c hc => (hhead rfl c hc).1]
    have e1 : (ds ++ rest).head? ≠ some '-' := fun h => (hhead rfl _ h).2.2 rfl
    have e2 : (ds ++ rest).head? ≠ some '+' := fun h => (hhead rfl _ h).2.1 rfl
    rw [if_neg (by simp only [e1, e2, or_self, not_false_eq_true])]
    exact ⟨⟨fun h => absurd h e1, fun h => by cases h⟩, htake⟩
  · rw [hdrop _ fun c hc => by cases hc; decide]
    exact ⟨⟨fun h => by simp at h, fun h => by cases h⟩, htake⟩
  · rw [hdrop _ fun c hc => by cases hc; decide]
    exact ⟨⟨fun _ => rfl, fun _ => rfl⟩, htake⟩

/-- **C75**, how the argument of example.cpp is read: white space, a sign or none, decimal digits, then
anything else.  It throws if there are no digits or the number is no `int`. -/
theorem C75_reads (ws sign ds rest : Str)
    (hws : ∀ c ∈ ws, c ∈ [' ', '\t', '\n', '\x0b', '\x0c', '\r'])
    (hsign : sign ∈ [[], ['+'], ['-']]) (hds : ∀ c ∈ ds, c.isDigit = true)
    (hrest : ∀ c, rest.head? = some c → c.isDigit = false ∧
      (ds = [] → sign = [] → isWs c = false ∧ c ≠ '+' ∧ c ≠ '-')) :
    let v : Int := if sign = ['-'] then -(Nat.ofDigitChars 10 ds 0 : Int) else Nat.ofDigitChars 10 ds 0
    (ds = [] ∨ ¬ IsInt v → stoi (ws ++ sign ++ ds ++ rest) = none) ∧
    (ds ≠ [] → IsInt v → stoi (ws ++ sign ++ ds ++ rest) = some v) := by
  obtain ⟨h1, h2⟩ := num_parse ws sign ds rest hws hsign hds hrest
  intro v
  have hv : stoi (ws ++ sign ++ ds ++ rest) =
      if ds = [] ∨ v < -2147483648 ∨ 2147483647 < v then none else some v := by
    unfold stoi
    dsimp only
    rw [h2]
    simp only [h1]
    rfl
  rw [hv]
  refine ⟨fun h => if_pos ?_, fun h hi => if_neg ?_⟩
  · rcases h with h | h
    · exact .inl h
    · right; unfold IsInt at h; omega
  · rintro (h' | h')
    · exact h h'
    · unfold IsInt at hi; omega

example : readInt " \n-12 x".toList = -12 ∧ readInt "99999999999".toList = 2147483647 ∧
    readInt "-99999999999".toList = -2147483648 := by decide +kernel

/-- **C36**, a file without any digit counts as success. -/
theorem C36_no_digit (s : Str) (h : ∀ c ∈ s, c.isDigit = false) : readInt s = 0 := by
  have key : ∀ t : Str, (∀ c ∈ t, c ∈ s) → t.takeWhile Char.isDigit = [] := by
    intro t ht
    cases t with
    | nil => rfl
    | cons c cs => rw [List.takeWhile_cons_of_neg (by simp [h c (ht c (by simp))])]
  unfold readInt
  dsimp only
  rw [key]
  · split <;> decide
  · intro c hc
    refine (List.dropWhile_sublist (p := isWs)).subset ?_
    split at hc
    · exact List.mem_of_mem_tail hc
    · exact hc

example : (∀ c ∈ "OK\n".toList, c.isDigit = false) ∧ readInt "OK\n".toList = 0 := by decide +kernel

/-- **C37**, what a process that could not be started, read or waited for returns and prints. -/
theorem C37_messages (os : POS) (fs : FS) (p : Process) :
    (os.start.value ≠ 0 → os.start.noent = true → ∃ r, (p.run os fs).1 = .ret r ∧
      r.retcode = some os.start.value ∧
      r.output = [⟨.error, "Program not found. Make sure it's available from the PATH.\n".toList⟩]) ∧
    (os.start.value ≠ 0 → os.start.noent = false → ∃ r, (p.run os fs).1 = .ret r ∧
      r.retcode = some os.start.value ∧ r.output = [⟨.error, os.start.msg⟩]) ∧
    (os.start.value = 0 → os.drain.value ≠ 0 → ∃ r, (p.run os fs).1 = .ret r ∧
      r.retcode = some os.drain.value ∧ r.output = written os.chunks ++ [⟨.error, os.drain.msg⟩]) ∧
    (os.start.value = 0 → os.drain.value = 0 → os.wait.value ≠ 0 → ∃ r, (p.run os fs).1 = .ret r ∧
      r.retcode = some os.wait.value ∧ r.output = written os.chunks ++ [⟨.error, os.wait.msg⟩]) := by
  refine ⟨fun h hn => ?_, fun h hn => ?_, fun h h2 => ?_, fun h h2 h3 => ?_⟩
  · rw [prun_start os fs p h, hn]; exact ⟨_, rfl, rfl, rfl⟩
  · rw [prun_start os fs p h, hn]; exact ⟨_, rfl, rfl, rfl⟩
  · rw [prun_drain os fs p h h2]; exact ⟨_, rfl, rfl, rfl⟩
  · rw [prun_wait os fs p h h2 h3]; exact ⟨_, rfl, rfl, rfl⟩

/-- **C75**, the program shows an end line for every task it records, and a start line for every task it
starts. -/
theorem C75_shown (a b : Nat → TaskId) (n : Nat) (E : BEnv) {univ visit order s}
    (hst : ∀ i < n, E.store (a i) = exampleTask ∧ E.store (b i) = exampleTask)
    (h : Run E (exampleSet a b n) univ visit order [] s) (tc : Nat) (ms : List Move) (verbose : Bool) :
    let C := execCfg E.store s.dag tc
    let V : VisitEnv := { hidden := fun t => (E.store t).hidden, task := C.dag.task, hasJob := C.hasJob }
    let items := ((Visitor.init verbose).onAll V (exec C ms).trace).2
    (∀ r ∈ recsOf (exec C ms).trace, ∃ er, .runEnd er r ∈ items) ∧
    ∀ er m, .beforeRun er m ∈ (exec C ms).trace → .status er m ∈ items := by
  intro C V items
  have hvis : ∀ m ∈ C.dag.nodes, (E.store (C.dag.task m)).hidden = false := by
    intro m hm
    obtain ⟨p, u, hat, _, hr⟩ := (h.nodes.2 _).1 (List.mem_map_of_mem hm)
    obtain ⟨i, hi, hu⟩ := example_at.1 hat
    have hu' : E.store u = exampleTask := by
      rcases hu with ⟨-, rfl⟩ | ⟨-, rfl⟩
      · exact (hst i hi).1
      · exact (hst i hi).2
    rcases Relation.ReflTransGen.cases_head hr with e | ⟨c, hc, _⟩
    · show (E.store (s.dag.task m)).hidden = false
      rw [← e, hu']; rfl
    · unfold DependsOn at hc
      rw [hu'] at hc
      cases hc
  have hwf := h.wf tc
  obtain ⟨hI, hT⟩ := both_exec (C := C) hwf ms
  constructor
  · intro r hr
    obtain ⟨er, m, he⟩ := mem_recsOf.1 hr
    refine ⟨er, (C45_shown V verbose _).2.1 er r m he ?_⟩
    rw [hT.recs] at hr
    have hn : r.node ∈ C.dag.nodes :=
      hI.inNodes _ (by simp only [allNodes, List.mem_append]; exact .inl (.inr (List.mem_map_of_mem hr)))
    show (E.store r.t).hidden = false
    rw [(hI.recs r hr).t]
    exact hvis _ hn
  · intro er m he
    obtain ⟨pre, post, htr⟩ := List.append_of_mem he
    exact (C45_shown V verbose _).2.2 er m he (hvis m (hT.always pre _ post htr).2.1)

end Joque
