import Verif.Props.PrintVisitor
import Verif.Props.Outlive

/-! # C46: exactly when the set behind the progress line is right -/

namespace Joque

/-- the first element with a property -/
theorem first_bad {α : Type} {p : α → Prop} : ∀ (l : List α), (¬ ∀ x ∈ l, p x) →
    ∃ a x b, l = a ++ x :: b ∧ (∀ y ∈ a, p y) ∧ ¬ p x := by
  intro l
  induction l with
  | nil => exact fun h => absurd (fun x hx => by cases hx) h
  | cons x l ih =>
    intro h
    by_cases hx : p x
    · obtain ⟨a, y, b, h1, h2, h3⟩ := ih fun hl => h fun y hy => by
        rcases List.mem_cons.mp hy with rfl | hy
        · exact hx
        · exact hl y hy
      refine ⟨x :: a, y, b, by rw [h1]; rfl, fun z hz => ?_, h3⟩
      rcases List.mem_cons.mp hz with rfl | hz
      · exact hx
      · exact h2 z hz
    · exact ⟨[], x, l, rfl, (fun y hy => by cases hy), hx⟩

/-- **C46**, exactly.  A new visitor that shows all tasks, used for one execution.  Up to some moment its
set has always been the set of the tasks announced and not yet ended, if and only if no task has ended so
far that outlived one begun before it (see C16_exact). -/
theorem C46_exact (C : Cfg) (hwf : C.dag.WF) (ms : List Move) (E : VisitEnv) (verbose : Bool)
    (hall : ∀ m, E.hidden (E.task m) = false ∨ verbose = true)
    (pre post : List Event) (htr : (exec C ms).trace = pre ++ post) :
    (∀ p q, pre = p ++ q → ∀ m, m ∈ ((Visitor.init verbose).onAll E p).1.queued ↔ Ongoing p m) ↔
      ∀ p er r n q, pre = p ++ .afterRun er r n :: q → ¬ Outlives p r.node := by
  have hright : (∀ p er r n q, pre = p ++ .afterRun er r n :: q → ¬ Outlives p r.node) ↔
      ∀ e ∈ pre, ∀ er r n, e = .afterRun er r n → n = r.node := by
    constructor
    · rintro h e he er r n rfl
      obtain ⟨p, q, hpq⟩ := List.append_of_mem he
      exact (C16_exact C hwf ms (pre := p) (post := q ++ post) (er := er) (r := r) (m := n) (by rw [htr, hpq]; simp)).mpr
        (h p er r n q hpq)
    · intro h p er r n q hpq
      exact (C16_exact C hwf ms (pre := p) (post := q ++ post) (er := er) (r := r) (m := n) (by rw [htr, hpq]; simp)).mp
        (h _ (by rw [hpq]; simp) er r n rfl)
  rw [hright]
  have good : ∀ p q, pre = p ++ q → (∀ e ∈ p, ∀ er r n, e = .afterRun er r n → n = r.node) →
      ∀ m, m ∈ ((Visitor.init verbose).onAll E p).1.queued ↔ Ongoing p m := by
    intro p q hpq h m
    have := (queued_exec C hwf ms E verbose p (q ++ post) (by rw [htr, hpq]; simp)
      fun er r n hm => h _ hm er r n rfl).2 m
    rw [this]
    exact ⟨fun h => h.1, fun h => ⟨h, hall m⟩⟩
  constructor
  · intro h
    apply Classical.byContradiction
    intro hn
    obtain ⟨p, e, q, hpq, hp, he⟩ := first_bad pre hn
    simp only [Classical.not_forall] at he
    obtain ⟨er, r, n, rfl, hne⟩ := he
    have hT := tinv_exec hwf ms
    have htr' : (exec C ms).trace = p ++ .afterRun er r n :: (q ++ post) := by rw [htr, hpq]; simp
    have hon : Ongoing (p ++ [.afterRun er r n]) r.node := by
      refine (h _ q (by rw [hpq]; simp) r.node).mp ?_
      have h1 : r.node ∈ ((Visitor.init verbose).onAll E p).1.queued := by
        refine (good p (.afterRun er r n :: q) hpq hp r.node).mpr ?_
        obtain ⟨hb, _⟩ := (labInv_exec hwf ms).seen p _ _ htr' er r n rfl
        obtain ⟨e1, hx⟩ := before_get hb
        refine ⟨⟨e1, List.mem_of_getElem? hx⟩, fun hr => ?_⟩
        have := (rec_split hT htr' hr).1
        simp [life, tagOf] at this
      rw [onAll_append]
      show r.node ∈ ((Visitor.init verbose).onAll E p).1.queued.filter (· ≠ n)
      rw [List.mem_filter]
      exact ⟨h1, by simpa using fun hc => hne hc.symm⟩
    exact hon.2 ⟨r, mem_recsOf.2 ⟨er, n, by simp⟩, rfl⟩
  · intro h p q hpq
    exact good p q hpq fun e he => h e (by rw [hpq]; exact List.mem_append_left _ he)

/-- three threads: the set is right until task 3, which began after task 1 and ended later, ends -/
example : ∃ p er r n q, (exec (Ex.par 3) Ex.swapMoves).trace = p ++ .afterRun er r n :: q ∧ Outlives p r.node := by
  have h : (match (exec (Ex.par 3) Ex.swapMoves).trace.drop 26 with
        | .afterRun _ r n :: _ => decide (n ≠ r.node)
        | _ => false) = true := by decide +kernel
  have hT : (exec (Ex.par 3) Ex.swapMoves).trace = (exec (Ex.par 3) Ex.swapMoves).trace.take 26 ++
      (exec (Ex.par 3) Ex.swapMoves).trace.drop 26 := (List.take_append_drop _ _).symm
  revert hT h
  generalize (exec (Ex.par 3) Ex.swapMoves).trace.drop 26 = d
  intro h hT
  split at h
  · next er r n q =>
    refine ⟨_, er, r, n, q, hT, Classical.byContradiction fun hc => of_decide_eq_true h ?_⟩
    exact (C16_exact _ (Ex.par_wf 3) _ hT).mpr hc
  · cases h

end Joque
