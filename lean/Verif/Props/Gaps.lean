import Verif.Props.Dag2
import Verif.Props.FormatDag
import Verif.Props.OneWorker

/-! # Statements added after mutants of the model survived (seeded/LOG.jsonl) -/

namespace Joque

/-- **C03** in terms of the task set: two different tasks that name a common resource never execute
at the same moment. -/
theorem C03_tasks (E : BEnv) (ts : TaskSet) (univ visit : List TaskId)
    (order : List TaskId → List TaskId) (filter : Str) (s : BSt)
    (h : Run E ts univ visit order filter s) (tc : Nat) (ms : List Move) (pre post : List Event)
    (htr : (exec (execCfg E.store s.dag tc) ms).trace = pre ++ post) (a b : Node)
    (ha : Running pre a) (hb : Running pre b) (hab : s.dag.task a ≠ s.dag.task b) :
    ∀ r ∈ (E.store (s.dag.task a)).resources, r ∉ (E.store (s.dag.task b)).resources :=
  C03_resource_exclusivity _ (h.wf tc) ms pre post htr a b ha hb fun hc => hab (by rw [hc])

/-- the lines of a text -/
def textLines : Str → List Str
  | [] => [[]]
  | c :: cs =>
    if c = '\n' then [] :: textLines cs
    else match textLines cs with
      | [] => [[c]]
      | l :: ls => (c :: l) :: ls

theorem textLines_line (l rest : Str) (hl : '\n' ∉ l) :
    textLines (l ++ '\n' :: rest) = l :: textLines rest := by
  induction l with
  | nil => exact if_pos rfl
  | cons c l ih =>
    have hc : ¬ c = '\n' := fun hc => hl (hc ▸ List.mem_cons_self)
    show textLines (c :: (l ++ '\n' :: rest)) = _
    rw [textLines, if_neg hc, ih fun hm => hl (List.mem_cons_of_mem _ hm)]

theorem textLines_flatMap (ls : List Str) (h : ∀ l ∈ ls, '\n' ∉ l) :
    textLines (ls.flatMap (· ++ "\n".toList)) = ls ++ [[]] := by
  induction ls with
  | nil => rfl
  | cons l ls ih =>
    have e : (l :: ls).flatMap (· ++ "\n".toList) = l ++ '\n' :: ls.flatMap (· ++ "\n".toList) := by
      rw [List.flatMap_cons, List.append_assoc]; rfl
    rw [e, textLines_line _ _ (h l List.mem_cons_self),
      ih fun x hx => h x (List.mem_cons_of_mem _ hx)]
    rfl

theorem newline_joinNames (g : Dag) (h : ∀ n, '\n' ∉ g.name n) (es : List Edge) :
    '\n' ∉ joinNames g es := by
  have key : ∀ (es : List Edge) (acc : Str), '\n' ∉ acc →
      '\n' ∉ es.foldl (fun res e => res ++ (", ".toList ++ g.name e.tgt)) acc := by
    intro es
    induction es with
    | nil => exact fun _ ha => ha
    | cons e es ih =>
      intro acc ha
      refine ih _ fun hc => ?_
      rcases List.mem_append.mp hc with hc | hc
      · exact ha hc
      · rcases List.mem_append.mp hc with hc | hc
        · exact absurd hc (by decide)
        · exact h _ hc
  cases es with
  | nil => exact List.not_mem_nil
  | cons e es =>
    intro hc
    rcases List.mem_append.mp hc with hc | hc
    · refine key es _ (fun hc => ?_) hc
      rcases List.mem_append.mp hc with hc | hc
      · exact absurd hc (by decide)
      · exact h _ hc
    · exact absurd hc (by decide)

/-- **C47** `print_dag` writes each of these strings on a line of its own. -/
theorem C47_text (g : Dag) (h : ∀ n, '\n' ∉ g.name n) :
    textLines (printDag g) = (g.nodes.flatMap fun n =>
      [g.name n, afterLine ((g.edges.filter fun e => e.src = n).map fun e => g.name e.tgt)]) ++ [[]] := by
  rw [← C47_lines]
  refine textLines_flatMap _ fun l hl => ?_
  obtain ⟨n, _, hl⟩ := List.mem_flatMap.mp hl
  rcases List.mem_cons.mp hl with rfl | hl
  · exact h n
  · rw [List.mem_singleton.mp hl]
    intro hc
    rcases List.mem_append.mp hc with hc | hc
    · rcases List.mem_append.mp hc with hc | hc
      · exact absurd hc (by decide +kernel)
      · exact newline_joinNames g h _ hc
    · exact absurd hc (by decide +kernel)

/-- a name with a line break takes more than one line -/
example : textLines (printDag { nodes := [1], edges := [], name := fun _ => "a\nb".toList, task := fun n => n }) =
    ["a".toList, "b".toList, "   -> runs after {}".toList, []] := by decide +kernel

/-- **C21** Nothing is said about what follows undefined behaviour or a failed assertion: the model
stays where it is. -/
theorem C21_absorbing (C : Cfg) (ms more : List Move)
    (h : (exec C ms).phase = .ub ∨ (exec C ms).phase = .abort) :
    exec C (ms ++ more) = exec C ms := by
  have hd : (exec C ms).phase.dead = true := by rcases h with h | h <;> (rw [h]; rfl)
  have hctl : ∀ b, ctlStep C (exec C ms) b = exec C ms := by
    intro b
    unfold ctlStep
    rcases h with h | h <;> rw [h]
  have hs : ∀ m, step C (exec C ms) m = exec C ms := by
    intro m
    cases m with
    | ctl => exact hctl true
    | ctlFail => exact hctl false
    | fault f =>
      show faultStep C (exec C ms) f = _
      rw [fault_quiet C f (by rcases h with h | h <;> simp [h])]
      exact hctl true
    | begin n => exact if_pos hd
    | finish n => exact if_pos hd
    | destroy =>
      show destroyStep (exec C ms) = _
      unfold destroyStep
      rcases h with h | h <;> rw [h]
  show (ms ++ more).foldl (step C) St.init = _
  rw [List.foldl_append]
  show more.foldl (step C) (exec C ms) = _
  induction more with
  | nil => rfl
  | cons m more ih => rw [List.foldl_cons, hs m]; exact ih

end Joque
