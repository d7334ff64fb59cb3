import Verif.Props.Session

/-!
# When one visitor may be used for several executions

What C76 says, exactly.
-/

namespace Joque

theorem after_verbose (v : Visitor) (cs : List VCall) : (v.after cs).verbose = v.verbose := by
  induction cs using List.reverseRecOn with
  | nil => rfl
  | append_singleton cs c ih => rw [after_snoc, on_verbose, ih]

theorem queued_on {v : Visitor} {c : VCall} {n : Node} :
    n ∈ (v.on c.env c.ev).1.queued ↔ c.showsStart v.verbose n ∨
      (n ∈ v.queued ∧ (∀ er r, c.ev ≠ .afterRun er r n) ∧ ∀ er, c.ev ≠ .afterExecution er) := by
  obtain ⟨E, al, e⟩ := c
  simp only [VCall.showsStart]
  cases e with
  | beforeRun er m =>
    simp only [Visitor.on, Visitor.beforeRun]
    split
    · rename_i h
      rw [mem_setInsert]
      simp only [Event.beforeRun.injEq, ne_eq, reduceCtorEq, not_false_eq_true, implies_true, and_true]
      constructor
      · rintro (rfl | h')
        · refine .inl ⟨⟨er, rfl, rfl⟩, ?_⟩
          simp at h
          tauto
        · exact .inr h'
      · rintro (⟨⟨er', -, rfl⟩, -⟩ | h')
        · exact .inl rfl
        · exact .inr h'
    · rename_i h
      simp only [Event.beforeRun.injEq, ne_eq, reduceCtorEq, not_false_eq_true, implies_true, and_true]
      constructor
      · exact .inr
      · rintro (⟨⟨er', -, rfl⟩, h'⟩ | h')
        · exfalso
          simp at h
          rcases h' with h' | h'
          · rw [h.2] at h'; cases h'
          · rw [h.1] at h'; cases h'
        · exact h'
  | afterRun er r m =>
    simp only [Visitor.on, Visitor.afterRun, List.mem_filter]
    simp
    intro _
    exact ⟨fun h e => h e.symm, fun h e => h e.symm⟩
  | afterExecution er => simp [Visitor.on]
  | _ => simp [Visitor.on]

theorem queued_after {verbose : Bool} {cs : List VCall} {n : Node} :
    n ∈ ((Visitor.init verbose).after cs).queued ↔ StillShown verbose cs n := by
  induction cs using List.reverseRecOn with
  | nil =>
    constructor
    · intro h; cases h
    · rintro ⟨a, c, b, h, -⟩
      simp at h
  | append_singleton cs c ih =>
    rw [after_snoc, queued_on, after_verbose, ih]
    constructor
    · rintro (h | ⟨⟨a, d, b, rfl, h1, h2⟩, h3, h4⟩)
      · exact ⟨cs, c, [], rfl, h, by simp⟩
      · refine ⟨a, d, b ++ [c], by simp, h1, fun x hx => ?_⟩
        rcases List.mem_append.1 hx with hx | hx
        · exact h2 x hx
        · rw [List.mem_singleton.1 hx]; exact ⟨h3, h4⟩
    · rintro ⟨a, d, b, e, h1, h2⟩
      rcases List.eq_nil_or_concat b with rfl | ⟨b, x, rfl⟩
      · obtain ⟨-, e⟩ := List.append_inj' e rfl
        cases e
        exact .inl h1
      · rw [List.concat_eq_append, ← List.cons_append, ← List.append_assoc] at e
        obtain ⟨e1, e⟩ := List.append_inj' e rfl
        cases e
        rw [List.concat_eq_append] at h2
        exact .inr ⟨⟨a, d, b, e1, h1, fun y hy => h2 y (by simp [hy])⟩, h2 c (by simp)⟩

/-- **C76**, exactly.  Provided each call passes nodes that exist: a visitor never reads a node that was
destroyed if and only if, whenever it is told that a task ended, the node with the lowest address among those
it still waits for exists. -/
theorem C76_exact (verbose : Bool) (cs : List VCall) (own : ∀ c ∈ cs, ∀ n ∈ c.ev.about, c.alive n = true) :
    (Visitor.init verbose).calls cs ≠ none ↔
    ∀ pre c post er r m, cs = pre ++ c :: post → c.ev = .afterRun er r m →
      ∀ n, StillShown verbose (pre ++ [c]) n → (∀ k, StillShown verbose (pre ++ [c]) k → n ≤ k) → c.alive n = true := by
  constructor
  · intro h pre c post er r m hcs he n hn hleast
    by_contra hd
    refine h ?_
    rw [hcs]
    have hq := sorted_after (v := Visitor.init verbose) .nil (pre ++ [c])
    rw [← queued_after] at hn
    have hl : ∀ k ∈ ((Visitor.init verbose).after (pre ++ [c])).queued, n ≤ k := fun k hk =>
      hleast k (queued_after.1 hk)
    rw [after_snoc, he] at hn hq hl
    refine calls_none (i := .status er n) (n := n) ?_ (by simp [Item.names]) (by simpa using hd)
    rw [he]
    simp only [Visitor.on, Visitor.afterRun] at hn hq hl ⊢
    generalize ((Visitor.init verbose).after pre).queued.filter (· ≠ m) = q at *
    cases q with
    | nil => cases hn
    | cons a q =>
      have : n = a := by
        rcases List.mem_cons.1 hn with h | h
        · exact h
        · have h1 := hl a (by simp)
          have h2 := (List.pairwise_cons.1 hq).1 n h
          exact absurd (Nat.lt_of_lt_of_le h2 h1) (Nat.lt_irrefl _)
      subst this
      simp
  · intro h
    obtain ⟨items, h⟩ := calls_some (v := Visitor.init verbose) (cs := cs) (by
      intro pre c post heq i hi n hn
      by_cases hab : n ∈ c.ev.about
      · exact own c (by rw [heq]; simp) n hab
      rcases on_names hi hn with h' | h'
      · exact absurd h' hab
      by_cases hev : ∃ er r m, c.ev = .afterRun er r m
      · obtain ⟨er, r, m, he⟩ := hev
        rw [← after_snoc] at h'
        have hw := queued_after.1 h'
        refine h pre c post er r m heq he n hw fun k hk => ?_
        rw [← queued_after, after_snoc, he] at hk
        have hq := sorted_after (v := Visitor.init verbose) .nil (pre ++ [c])
        rw [after_snoc, he] at hq
        rw [he] at hi
        simp only [Visitor.on, Visitor.afterRun] at hk hq hi
        generalize ((Visitor.init verbose).after pre).queued.filter (· ≠ m) = q at *
        rcases List.mem_append.1 hi with hi | hi
        · exfalso
          rcases List.mem_append.1 hi with hi | hi <;> split at hi
          · rw [List.mem_singleton] at hi; subst hi; cases hn
          · cases hi
          · rw [List.mem_singleton] at hi; subst hi; cases hn
          · cases hi
        · cases q with
          | nil => cases hi
          | cons a q =>
            rw [List.mem_singleton] at hi
            subst hi
            rw [Item.names, List.mem_singleton] at hn
            subst hn
            rcases List.mem_cons.1 hk with h | h
            · exact Nat.le_of_eq h.symm
            · exact Nat.le_of_lt ((List.pairwise_cons.1 hq).1 k h)
      · exfalso
        obtain ⟨E, al, e⟩ := c
        cases e with
        | afterRun er r m => exact hev ⟨er, r, m, rfl⟩
        | _ =>
          simp only [Visitor.on, Visitor.beforeRun, Event.about] at hi hab
          first
          | (cases hi; done)
          | (split at hi <;> simp at hi <;> subst hi <;> simp_all [Item.names])
          | (simp at hi; subst hi; simp_all [Item.names]))
    rw [h]
    exact fun h => by cases h

/-- node 5 was left behind by an execution that is gone; while tasks with lower addresses are in progress this
does no harm, contrary to what `C76_partial` asks for; when the last of them ends it does -/
example (er : ExecRecord) (r : RunRecord) (E : VisitEnv) (hE : ∀ t, E.hidden t = false) :
    let all : Node → Bool := fun _ => true
    let some : Node → Bool := fun n => n < 5
    let cs : List VCall := [⟨E, all, .beforeRun er 5⟩, ⟨E, some, .beforeRun er 3⟩, ⟨E, some, .beforeRun er 2⟩,
      ⟨E, some, .afterRun er r 3⟩]
    (Visitor.init false).calls cs ≠ none ∧
    (Visitor.init false).calls (cs ++ [⟨E, some, .afterRun er r 2⟩]) = none := by
  have h3 : (3 : Node) < 5 := by decide
  have h2 : (2 : Node) < 3 := by decide
  have h52 : ¬ (5 : Node) = 2 := by decide
  have h53 : ¬ (5 : Node) = 3 := by decide
  have h23 : ¬ (2 : Node) = 3 := by decide
  constructor <;>
    simp [Visitor.calls, Visitor.on, Visitor.beforeRun, Visitor.afterRun, Visitor.init, hE, setInsert, h3, h2,
      h52, h53, h23]
  all_goals simp_all [Item.names]

end Joque
