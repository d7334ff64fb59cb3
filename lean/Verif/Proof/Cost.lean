import Verif.Model.Cost
import Verif.Proof.Cycle
import Verif.Proof.Candidate
import Verif.Proof.Inval

/-! # The cost of the scheduler's searches -/

namespace Joque

variable {g : Dag}

/-- edges leaving `n` that the searches follow -/
def outDeg (g : Dag) (n : Node) : Nat := (filterEdges .after (g.outEdges n)).length

/-- edges the search may still follow: those leaving nodes with `p` that were not seen -/
def workLeft (g : Dag) (p : Node → Bool) (seen : List Node) : Nat :=
  ((g.nodes.filter (fun n => p n && decide (n ∉ seen))).map (outDeg g)).sum

theorem sum_filter_split {l : List Node} (h : l.Nodup) (w : Node → Nat) {q q' : Node → Bool} {n : Node}
    (hn : n ∈ l) (hq : q n = true) (hq' : ∀ m, q' m = (q m && decide (m ≠ n))) :
    ((l.filter q).map w).sum = w n + ((l.filter q').map w).sum := by
  induction l with
  | nil => cases hn
  | cons a l ih =>
    rw [List.nodup_cons] at h
    by_cases ha : a = n
    · subst ha
      have h2 : l.filter q' = l.filter q := by
        apply List.filter_congr
        intro m hm
        rw [hq' m]
        have : m ≠ a := fun e => h.1 (e ▸ hm)
        simp [this]
      have h3 : q' a = false := by rw [hq' a]; simp
      rw [List.filter_cons_of_pos hq, List.filter_cons_of_neg (by simp [h3]), h2]
      simp
    · have hn' : n ∈ l := (List.mem_cons.1 hn).resolve_left fun e => ha e.symm
      have := ih h.2 hn'
      have e : q' a = q a := by rw [hq' a]; simp [ha]
      cases hqa : q a with
      | true =>
        rw [List.filter_cons_of_pos hqa, List.filter_cons_of_pos (by rw [e, hqa])]
        simp only [List.map_cons, List.sum_cons]
        omega
      | false =>
        rw [List.filter_cons_of_neg (by simp [hqa]), List.filter_cons_of_neg (by simp [e, hqa])]
        exact this

theorem workLeft_step (hwf : g.WF) {p : Node → Bool} {seen : List Node} {n : Node} (hn : n ∈ g.nodes)
    (hp : p n = true) (hs : n ∉ seen) :
    workLeft g p seen = outDeg g n + workLeft g p (n :: seen) := by
  apply sum_filter_split hwf.nodup _ hn
  · simp [hp, hs]
  · intro m
    by_cases h1 : m = n <;> by_cases h2 : m ∈ seen <;> simp [h1, h2]

theorem count_split (es : List Edge) (p : Node → Bool) {a : Node} {l : List Node} (ha : a ∉ l) :
    (es.filter (fun e => decide (e.kind = .after) && p e.src && decide (e.src ∈ a :: l))).length =
      (es.filter (fun e => decide (e.kind = .after) && p e.src && decide (e.src = a))).length +
      (es.filter (fun e => decide (e.kind = .after) && p e.src && decide (e.src ∈ l))).length := by
  induction es with
  | nil => rfl
  | cons e es ihe =>
    simp only [List.filter_cons]
    have hx : decide (e.src ∈ a :: l) = (decide (e.src = a) || decide (e.src ∈ l)) := by simp
    rw [hx]
    cases hk : (decide (e.kind = .after) && p e.src) with
    | false => simpa using ihe
    | true =>
      by_cases h1 : e.src = a
      · have h2 : e.src ∉ l := by rw [h1]; exact ha
        rw [decide_eq_true h1, decide_eq_false h2]
        simp only [Bool.true_and, Bool.true_or, Bool.false_eq_true, if_true, if_false, List.length_cons]
        omega
      · by_cases h2 : e.src ∈ l
        · rw [decide_eq_false h1, decide_eq_true h2]
          simp only [Bool.true_and, Bool.or_true, Bool.false_eq_true, if_true, if_false, List.length_cons]
          omega
        · rw [decide_eq_false h1, decide_eq_false h2]
          simp only [Bool.or_false, Bool.and_false, Bool.false_eq_true, if_false]
          exact ihe

theorem sum_outDeg {l : List Node} (hl : l.Nodup) (es : List Edge) (p : Node → Bool) :
    ((l.filter p).map fun n => (filterEdges .after (es.filter (fun e => e.src = n))).length).sum =
      (es.filter (fun e => decide (e.kind = .after) && p e.src && decide (e.src ∈ l))).length := by
  induction l with
  | nil => simp
  | cons a l ih =>
    rw [List.nodup_cons] at hl
    have key := count_split es p hl.1
    rw [key, ← ih hl.2]
    have h3 : (es.filter (fun e => decide (e.kind = .after) && p e.src && decide (e.src = a))).length =
        if p a then (filterEdges .after (es.filter (fun e => e.src = a))).length else 0 := by
      unfold filterEdges
      rw [List.filter_filter]
      cases hpa : p a with
      | true =>
        rw [if_pos rfl]
        congr 1
        apply List.filter_congr
        intro e _
        by_cases h : e.src = a <;> simp [h, hpa]
      | false =>
        rw [if_neg (by simp), List.length_eq_zero_iff, List.filter_eq_nil_iff]
        intro e _ h
        simp only [Bool.and_eq_true, decide_eq_true_eq] at h
        rw [h.2, hpa] at h
        exact absurd h.1.2 (by simp)
    rw [h3]
    cases hpa : p a with
    | true => rw [List.filter_cons_of_pos hpa]; simp
    | false => rw [List.filter_cons_of_neg (by simp [hpa])]; simp

theorem workLeft_nil (hwf : g.WF) (p : Node → Bool) :
    workLeft g p [] = (g.edges.filter fun e => decide (e.kind = .after) && p e.src).length := by
  unfold workLeft
  have : (fun n => p n && decide (n ∉ ([] : List Node))) = p := by funext n; simp
  rw [this]
  have h := sum_outDeg hwf.nodup g.edges p
  refine h.trans ?_
  congr 1
  apply List.filter_congr
  intro e he
  simp [(hwf.closed e he).1]

theorem edges_tgt (hwf : g.WF) {n : Node} {e : Edge} (h : e ∈ filterEdges .after (g.outEdges n)) :
    e.tgt ∈ g.nodes := (hwf.closed _ (mem_filterEdges_out.1 h).1).2

/-! ## the cycle check -/

/-- calls and the work left: all of it is spent unless a cycle is found -/
def Spent (g : Dag) (p : Node → Bool) (calls own : Nat) (found : Prop) (before after : List Node) : Prop :=
  calls + workLeft g p after ≤ own + workLeft g p before ∧
  (¬ found → calls + workLeft g p after = own + workLeft g p before)

theorem check_calls (hwf : g.WF) (fuel : Nat) : ∀ n s r s', n ∈ g.nodes →
    checkForCycle g fuel n s = some (r, s') →
    Spent g (fun _ => true) (checkForCycleCost g fuel n s).calls 1 (r ≠ none) s.seen s'.seen := by
  induction fuel with
  | zero => intro n s r s' _ h; cases h
  | succ fuel ih =>
    have loop : ∀ (n : Node) (es : List Edge) (s : CSt) r s', (∀ e ∈ es, e.tgt ∈ g.nodes) →
        cycleLoop (checkForCycle g fuel) n es s = some (r, s') →
        Spent g (fun _ => true) (cycleLoopCost (checkForCycle g fuel) (checkForCycleCost g fuel) es s).calls
          es.length (r ≠ none) s.seen s'.seen := by
      intro n es
      induction es with
      | nil =>
        intro s r s' _ h
        rw [cycleLoop] at h
        cases h
        exact ⟨by simp [cycleLoopCost, Cost.zero], fun _ => by simp [cycleLoopCost, Cost.zero]⟩
      | cons e es ihe =>
        intro s r s' hes h
        rw [cycleLoop] at h
        cases hc : checkForCycle g fuel e.tgt s with
        | none => rw [hc] at h; cases h
        | some q =>
          obtain ⟨r1, s1⟩ := q
          have h1 := ih e.tgt s r1 s1 (hes e List.mem_cons_self) hc
          rw [hc] at h
          cases r1 with
          | none =>
            have h2 := ihe s1 r s' (fun e' he' => hes e' (List.mem_cons_of_mem _ he')) h
            have h1e := h1.2 (by simp)
            simp only [cycleLoopCost, hc, Cost.seq, List.length_cons]
            refine ⟨?_, fun hr => ?_⟩
            · have := h2.1; omega
            · have := h2.2 hr; omega
          | some p =>
            have hs : s'.seen = s1.seen ∧ r = some p := by
              dsimp only at h
              split at h
              · cases h; exact ⟨rfl, rfl⟩
              · cases h; exact ⟨rfl, rfl⟩
            simp only [cycleLoopCost, hc, List.length_cons]
            rw [hs.1]
            refine ⟨?_, fun hr => absurd (by rw [hs.2]; simp) hr⟩
            have := h1.1
            omega
    intro n s r s' hn h
    rw [checkForCycle] at h
    by_cases hseen : n ∈ s.seen
    · rw [if_pos hseen] at h
      cases h
      simp only [checkForCycleCost, hseen, if_true, Cost.call, Cost.zero]
      exact ⟨by omega, fun _ => by omega⟩
    · rw [if_neg hseen] at h
      have h1 := loop n _ _ r s' (fun e he => edges_tgt hwf he) h
      have h2 := workLeft_step hwf (p := fun _ => true) hn rfl hseen
      simp only [checkForCycleCost, hseen, if_false, Cost.call]
      have h3 := h1.1
      dsimp only at h3
      unfold outDeg at h2
      refine ⟨by omega, fun hr => ?_⟩
      have h4 := h1.2 hr
      dsimp only at h4
      omega

/-- the stack is as before when nothing was found -/
theorem check_stack (fuel : Nat) : ∀ n s s', checkForCycle g fuel n s = some (none, s') →
    s'.stack = s.stack := by
  induction fuel with
  | zero => intro n s s' h; cases h
  | succ fuel ih =>
    have loop : ∀ (n : Node) (es : List Edge) (s : CSt) s',
        cycleLoop (checkForCycle g fuel) n es s = some (none, s') → s'.stack = s.stack.dropLast := by
      intro n es
      induction es with
      | nil => intro s s' h; rw [cycleLoop] at h; cases h; rfl
      | cons e es ihe =>
        intro s s' h
        rw [cycleLoop] at h
        cases hc : checkForCycle g fuel e.tgt s with
        | none => rw [hc] at h; cases h
        | some q =>
          obtain ⟨r1, s1⟩ := q
          rw [hc] at h
          cases r1 with
          | none => rw [ihe s1 s' h, ih e.tgt s s1 hc]
          | some p => dsimp only at h; split at h <;> cases h
    intro n s s' h
    rw [checkForCycle] at h
    split at h
    · injection h with h; injection h with _ h; rw [← h]
    · rw [loop n _ _ s' h]; simp

/-- a call `d` deep goes along a chain of `d` nodes -/
theorem check_depth (fuel : Nat) : ∀ n s, 0 < fuel →
    ∃ c : List Node, c.IsChain (AfterEdge g) ∧ c.head? = some n ∧
      c.length = (checkForCycleCost g fuel n s).depth := by
  induction fuel with
  | zero => intro n s h; omega
  | succ fuel ih =>
    have loop : ∀ (n : Node) (es : List Edge) (s : CSt), (∀ e ∈ es, AfterEdge g n e.tgt) →
        ∃ c : List Node, (n :: c).IsChain (AfterEdge g) ∧
          c.length = (cycleLoopCost (checkForCycle g fuel) (checkForCycleCost g fuel) es s).depth := by
      intro n es
      induction es with
      | nil => intro s _; exact ⟨[], by simp, rfl⟩
      | cons e es ihe =>
        intro s hes
        have hone : ∃ c : List Node, (n :: c).IsChain (AfterEdge g) ∧
            c.length = (checkForCycleCost g fuel e.tgt s).depth := by
          cases fuel with
          | zero => exact ⟨[], by simp, rfl⟩
          | succ fuel =>
            obtain ⟨c, h1, h2, h3⟩ := ih e.tgt s (by omega)
            refine ⟨c, ?_, h3⟩
            cases c with
            | nil => simp
            | cons a c =>
              cases h2
              rw [List.isChain_cons_cons]
              exact ⟨hes e List.mem_cons_self, h1⟩
        cases hc : checkForCycle g fuel e.tgt s with
        | none => simpa only [cycleLoopCost, hc] using hone
        | some q =>
          obtain ⟨r1, s1⟩ := q
          cases r1 with
          | none =>
            simp only [cycleLoopCost, hc, Cost.seq]
            rcases Nat.le_total (checkForCycleCost g fuel e.tgt s).depth
              (cycleLoopCost (checkForCycle g fuel) (checkForCycleCost g fuel) es s1).depth with hm | hm
            · rw [Nat.max_eq_right hm]
              exact ihe s1 fun e' he' => hes e' (List.mem_cons_of_mem _ he')
            · rw [Nat.max_eq_left hm]; exact hone
          | some p => simpa only [cycleLoopCost, hc] using hone
    intro n s _
    simp only [checkForCycleCost, Cost.call]
    split
    · exact ⟨[n], by simp, rfl, rfl⟩
    · obtain ⟨c, h1, h2⟩ := loop n (filterEdges .after (g.outEdges n))
        { s with seen := n :: s.seen, stack := s.stack ++ [n] } fun e he => hasEdge_of_mem he
      exact ⟨n :: c, h1, rfl, by simp [h2]⟩

theorem check_seen (fuel : Nat) : ∀ (n : Node) (s : CSt) r s', checkForCycle g fuel n s = some (r, s') →
    n ∈ s'.seen ∧ ∀ x ∈ s.seen, x ∈ s'.seen := by
  induction fuel with
  | zero => intro n s r s' h; cases h
  | succ fuel ihf =>
    have lp : ∀ (n : Node) (es : List Edge) (s : CSt) r s',
        cycleLoop (checkForCycle g fuel) n es s = some (r, s') → ∀ x ∈ s.seen, x ∈ s'.seen := by
      intro n es
      induction es with
      | nil => intro s r s' h; rw [cycleLoop] at h; cases h; exact fun _ h => h
      | cons e es ihe =>
        intro s r s' h
        rw [cycleLoop] at h
        cases hc : checkForCycle g fuel e.tgt s with
        | none => rw [hc] at h; cases h
        | some q =>
          obtain ⟨r1, s1⟩ := q
          rw [hc] at h
          have h1 := (ihf _ _ _ _ hc).2
          cases r1 with
          | none => exact fun x hx => ihe s1 r s' h x (h1 x hx)
          | some p => dsimp only at h; split at h <;> cases h <;> exact h1
    intro n s r s' h
    rw [checkForCycle] at h
    split at h
    · rename_i hs
      injection h with h
      injection h with _ h
      rw [← h]
      exact ⟨hs, fun _ h => h⟩
    · have := lp n _ _ r s' h
      exact ⟨this n List.mem_cons_self, fun x hx => this x (List.mem_cons_of_mem _ hx)⟩

theorem check_depth_le (hwf : g.WF) (fuel : Nat) : ∀ n s, n ∈ g.nodes →
    (checkForCycleCost g fuel n s).depth ≤ unseen g s.seen + 1 := by
  induction fuel with
  | zero => intro n s _; simp [checkForCycleCost, Cost.zero]
  | succ fuel ih =>
    have loop : ∀ (es : List Edge) (s : CSt), (∀ e ∈ es, e.tgt ∈ g.nodes) →
        (∀ n s r s', checkForCycle g fuel n s = some (r, s') → ∀ x ∈ s.seen, x ∈ s'.seen) →
        (cycleLoopCost (checkForCycle g fuel) (checkForCycleCost g fuel) es s).depth ≤
          unseen g s.seen + 1 := by
      intro es
      induction es with
      | nil => intro s _ _; simp [cycleLoopCost, Cost.zero]
      | cons e es ihe =>
        intro s hes hmono
        have h1 := ih e.tgt s (hes e List.mem_cons_self)
        cases hc : checkForCycle g fuel e.tgt s with
        | none => simpa only [cycleLoopCost, hc] using h1
        | some q =>
          obtain ⟨r1, s1⟩ := q
          cases r1 with
          | none =>
            simp only [cycleLoopCost, hc, Cost.seq]
            have h2 := ihe s1 (fun e' he' => hes e' (List.mem_cons_of_mem _ he')) hmono
            have h3 := unseen_mono (g := g) (hmono _ _ _ _ hc)
            omega
          | some p => simpa only [cycleLoopCost, hc] using h1
    intro n s hn
    simp only [checkForCycleCost, Cost.call]
    split
    · simp [Cost.zero]
    · rename_i hs
      have h1 := loop (filterEdges .after (g.outEdges n))
        { s with seen := n :: s.seen, stack := s.stack ++ [n] } (fun e he => edges_tgt hwf he) (fun n s r s' h => (check_seen fuel n s r s' h).2)
      have h2 := unseen_lt hn hs
      dsimp only at h1
      omega

theorem findCmps_le (l : List Node) (n : Node) : findCmps l n ≤ l.length := Nat.min_le_right _ _

theorem check_pos (fuel : Nat) (n : Node) (s : CSt) :
    (checkForCycleCost g fuel n s).calls ≠ 0 → 0 < (checkForCycleCost g fuel n s).depth := by
  cases fuel with
  | zero => intro h; exact absurd rfl h
  | succ fuel => intro _; simp [checkForCycleCost, Cost.call]

theorem loop_pos (fuel : Nat) (es : List Edge) : ∀ s : CSt,
    (cycleLoopCost (checkForCycle g fuel) (checkForCycleCost g fuel) es s).calls ≠ 0 →
    0 < (cycleLoopCost (checkForCycle g fuel) (checkForCycleCost g fuel) es s).depth := by
  induction es with
  | nil => intro s h; exact absurd rfl h
  | cons e es ih =>
    intro s
    have h1 := check_pos (g := g) fuel e.tgt s
    cases hc : checkForCycle g fuel e.tgt s with
    | none => simpa only [cycleLoopCost, hc] using h1
    | some q =>
      obtain ⟨r1, s1⟩ := q
      cases r1 with
      | none =>
        simp only [cycleLoopCost, hc, Cost.seq]
        have h2 := ih s1
        omega
      | some p => simpa only [cycleLoopCost, hc] using h1

/-- every call compares with the nodes of the stack only -/
theorem check_cmps (fuel : Nat) : ∀ n s,
    (checkForCycleCost g fuel n s).cmps ≤ (checkForCycleCost g fuel n s).calls *
      (s.stack.length + ((checkForCycleCost g fuel n s).depth - 1)) := by
  induction fuel with
  | zero => intro n s; simp [checkForCycleCost, Cost.zero]
  | succ fuel ih =>
    have loop : ∀ (es : List Edge) (s : CSt),
        (cycleLoopCost (checkForCycle g fuel) (checkForCycleCost g fuel) es s).cmps ≤
          (cycleLoopCost (checkForCycle g fuel) (checkForCycleCost g fuel) es s).calls *
          (s.stack.length +
            ((cycleLoopCost (checkForCycle g fuel) (checkForCycleCost g fuel) es s).depth - 1)) := by
      intro es
      induction es with
      | nil => intro s; simp [cycleLoopCost, Cost.zero]
      | cons e es ihe =>
        intro s
        have h1 := ih e.tgt s
        cases hc : checkForCycle g fuel e.tgt s with
        | none => simpa only [cycleLoopCost, hc] using h1
        | some q =>
          obtain ⟨r1, s1⟩ := q
          cases r1 with
          | none =>
            simp only [cycleLoopCost, hc, Cost.seq]
            have h2 := ihe s1
            rw [check_stack fuel e.tgt s s1 hc] at h2
            refine (Nat.add_le_add h1 h2).trans ?_
            rw [Nat.add_mul]
            exact Nat.add_le_add (Nat.mul_le_mul_left _ (by omega)) (Nat.mul_le_mul_left _ (by omega))
          | some p => simpa only [cycleLoopCost, hc] using h1
    intro n s
    simp only [checkForCycleCost, Cost.call]
    split
    · simpa [Cost.zero] using findCmps_le s.stack n
    · have h1 := loop (filterEdges .after (g.outEdges n))
        { s with seen := n :: s.seen, stack := s.stack ++ [n] }
      have hpos := loop_pos (g := g) fuel (filterEdges .after (g.outEdges n))
        { s with seen := n :: s.seen, stack := s.stack ++ [n] }
      generalize cycleLoopCost (checkForCycle g fuel) (checkForCycleCost g fuel)
        (filterEdges .after (g.outEdges n)) { s with seen := n :: s.seen, stack := s.stack ++ [n] } = c at h1 hpos
      have h2 := findCmps_le s.stack n
      rw [Nat.add_mul, Nat.one_mul]
      refine Nat.add_le_add ?_ (by omega)
      by_cases hd : c.calls = 0
      · rw [hd, Nat.zero_mul] at h1 ⊢; exact h1
      · refine h1.trans (Nat.mul_le_mul_left _ ?_)
        simp only [List.length_append, List.length_singleton]
        have := hpos hd
        omega

/-- all roots -/
theorem hasCycle_calls (hwf : g.WF) (fuel : Nat) (ns : List Node) : ∀ s b reps, (∀ n ∈ ns, n ∈ g.nodes) →
    hasCycleLoop g fuel ns s = .result b reps →
    (hasCycleLoopCost g fuel ns s).calls ≤ ns.length + workLeft g (fun _ => true) s.seen ∧
    (b = false → (∀ n ∈ g.nodes, n ∈ ns ∨ n ∈ s.seen) →
      (hasCycleLoopCost g fuel ns s).calls = ns.length + workLeft g (fun _ => true) s.seen) := by
  induction ns with
  | nil =>
    intro s b reps _ _
    refine ⟨by simp [hasCycleLoopCost, Cost.zero], fun _ h => ?_⟩
    have : workLeft g (fun _ => true) s.seen = 0 := by
      unfold workLeft
      rw [List.filter_eq_nil_iff.2]
      · rfl
      · intro n hn
        have := (h n hn).resolve_left (by simp)
        simp [this]
    simp [hasCycleLoopCost, Cost.zero, this]
  | cons n ns ih =>
    intro s b reps hns h
    have hn := hns n List.mem_cons_self
    rw [hasCycleLoop] at h
    split at h
    · cases h
    cases hc : checkForCycle g fuel n s with
    | none => rw [hc] at h; cases h
    | some q =>
      obtain ⟨r1, s1⟩ := q
      have h1 := check_calls hwf fuel n s r1 s1 hn hc
      rw [hc] at h
      cases r1 with
      | none =>
        obtain ⟨h2, h3⟩ := ih s1 b reps (fun m hm => hns m (List.mem_cons_of_mem _ hm)) h
        have h4 := h1.2 (by simp)
        simp only [hasCycleLoopCost, hc, Cost.seq, List.length_cons]
        refine ⟨by omega, fun hb hall => ?_⟩
        have := h3 hb fun m hm => by
          rcases hall m hm with h | h
          · rcases List.mem_cons.1 h with rfl | h
            · exact .inr (check_seen fuel _ _ _ _ hc).1
            · exact .inl h
          · exact .inr ((check_seen fuel _ _ _ _ hc).2 m h)
        omega
      | some p =>
        cases h
        simp only [hasCycleLoopCost, hc, List.length_cons]
        exact ⟨by have := h1.1; omega, fun h => by cases h⟩

theorem hasCycle_depth (fuel : Nat) (hf : 0 < fuel) (ns : List Node) : ∀ s,
    ∃ c : List Node, c.IsChain (AfterEdge g) ∧ c.length = (hasCycleLoopCost g fuel ns s).depth ∧
      ∀ n, c.head? = some n → n ∈ ns := by
  induction ns with
  | nil => intro s; exact ⟨[], by simp, rfl, by simp⟩
  | cons n ns ih =>
    intro s
    obtain ⟨c, h1, h2, h3⟩ := check_depth (g := g) fuel n s hf
    have hone : ∃ c : List Node, c.IsChain (AfterEdge g) ∧ c.length = (checkForCycleCost g fuel n s).depth ∧
        ∀ m, c.head? = some m → m ∈ n :: ns := ⟨c, h1, h3, fun m hm => by
      rw [h2] at hm; cases hm; exact List.mem_cons_self⟩
    cases hc : checkForCycle g fuel n s with
    | none => simpa only [hasCycleLoopCost, hc] using hone
    | some q =>
      obtain ⟨r1, s1⟩ := q
      cases r1 with
      | none =>
        simp only [hasCycleLoopCost, hc, Cost.seq]
        rcases Nat.le_total (checkForCycleCost g fuel n s).depth (hasCycleLoopCost g fuel ns s1).depth
          with hm | hm
        · rw [Nat.max_eq_right hm]
          obtain ⟨c, a, b, d⟩ := ih s1
          exact ⟨c, a, b, fun m hm => List.mem_cons_of_mem _ (d m hm)⟩
        · rw [Nat.max_eq_left hm]; exact hone
      | some p => simpa only [hasCycleLoopCost, hc] using hone

theorem hasCycle_depth_le (hwf : g.WF) (fuel : Nat) (ns : List Node) : ∀ s, (∀ n ∈ ns, n ∈ g.nodes) →
    (hasCycleLoopCost g fuel ns s).depth ≤ g.nodes.length + 1 := by
  induction ns with
  | nil => intro s _; simp [hasCycleLoopCost, Cost.zero]
  | cons n ns ih =>
    intro s hns
    have h1 := check_depth_le hwf fuel n s (hns n List.mem_cons_self)
    have h2 := unseen_le g s.seen
    cases hc : checkForCycle g fuel n s with
    | none => simp only [hasCycleLoopCost, hc]; omega
    | some q =>
      obtain ⟨r1, s1⟩ := q
      cases r1 with
      | none =>
        simp only [hasCycleLoopCost, hc, Cost.seq]
        have := ih s1 fun m hm => hns m (List.mem_cons_of_mem _ hm)
        omega
      | some p => simp only [hasCycleLoopCost, hc]; omega

theorem hasCycle_cmps (fuel : Nat) (ns : List Node) : ∀ s, s.stack = [] →
    (hasCycleLoopCost g fuel ns s).cmps ≤
      (hasCycleLoopCost g fuel ns s).calls * ((hasCycleLoopCost g fuel ns s).depth - 1) := by
  induction ns with
  | nil => intro s _; simp [hasCycleLoopCost, Cost.zero]
  | cons n ns ih =>
    intro s hs
    have h1 := check_cmps (g := g) fuel n s
    rw [hs] at h1
    simp only [List.length_nil, Nat.zero_add] at h1
    cases hc : checkForCycle g fuel n s with
    | none => simpa only [hasCycleLoopCost, hc] using h1
    | some q =>
      obtain ⟨r1, s1⟩ := q
      cases r1 with
      | none =>
        simp only [hasCycleLoopCost, hc, Cost.seq]
        have h2 := ih s1 (by rw [check_stack fuel n s s1 hc, hs])
        refine (Nat.add_le_add h1 h2).trans ?_
        rw [Nat.add_mul]
        exact Nat.add_le_add (Nat.mul_le_mul_left _ (by omega)) (Nat.mul_le_mul_left _ (by omega))
      | some p => simpa only [hasCycleLoopCost, hc] using h1

/-! ## the search for a task to start -/

section
variable {res : Node → List Res} {f : Flags} {used : List Res}

/-- nodes that are searched -/
def Flags.waiting (f : Flags) (n : Node) : Bool := !(f.started n || f.done n)

theorem cand_calls (hwf : g.WF) (fuel : Nat) : ∀ n seen r seen', n ∈ g.nodes →
    findCand g res f used fuel n seen = some (r, seen') →
    Spent g f.waiting (findCandCost g res f used fuel n seen).calls 1 (r ≠ none) seen seen' := by
  induction fuel with
  | zero => intro n s r s' _ h; cases h
  | succ fuel ih =>
    have loop : ∀ (es : List Edge) (seen : List Node) r seen', (∀ e ∈ es, e.tgt ∈ g.nodes) →
        candLoop (findCand g res f used fuel) es seen = some (r, seen') →
        Spent g f.waiting
          (candLoopCost (findCand g res f used fuel) (findCandCost g res f used fuel) es seen).calls
          es.length (r ≠ none) seen seen' := by
      intro es
      induction es with
      | nil =>
        intro s r s' _ h
        rw [candLoop] at h
        cases h
        exact ⟨by simp [candLoopCost, Cost.zero], fun _ => by simp [candLoopCost, Cost.zero]⟩
      | cons e es ihe =>
        intro s r s' hes h
        rw [candLoop] at h
        cases hc : findCand g res f used fuel e.tgt s with
        | none => rw [hc] at h; cases h
        | some q =>
          obtain ⟨r1, s1⟩ := q
          have h1 := ih e.tgt s r1 s1 (hes e List.mem_cons_self) hc
          rw [hc] at h
          cases r1 with
          | none =>
            have h2 := ihe s1 r s' (fun e' he' => hes e' (List.mem_cons_of_mem _ he')) h
            have h1e := h1.2 (by simp)
            simp only [candLoopCost, hc, Cost.seq, List.length_cons]
            refine ⟨?_, fun hr => ?_⟩
            · have := h2.1; omega
            · have := h2.2 hr; omega
          | some p =>
            cases h
            simp only [candLoopCost, hc, List.length_cons]
            refine ⟨?_, fun hr => absurd (by simp) hr⟩
            have := h1.1
            omega
    intro n s r s' hn h
    rw [findCand] at h
    cases hw : (f.started n || f.done n || decide (n ∈ s)) with
    | true =>
      rw [hw, if_pos rfl] at h
      cases h
      simp only [findCandCost, hw, if_true, Cost.call, Cost.zero]
      exact ⟨by omega, fun _ => by omega⟩
    | false =>
      rw [hw, if_neg (by simp)] at h
      dsimp only at h
      cases hl : candLoop (findCand g res f used fuel) (filterEdges .after (g.outEdges n)) (n :: s) with
      | none => rw [hl] at h; cases h
      | some q =>
        obtain ⟨r1, s1⟩ := q
        have h1 := loop _ _ r1 s1 (fun e he => edges_tgt hwf he) hl
        rw [hl] at h
        rw [Bool.or_eq_false_iff] at hw
        have h2 := workLeft_step hwf (p := f.waiting) hn (by simp [Flags.waiting, hw.1]) (by simpa using hw.2)
        have hw' : (f.started n || f.done n || decide (n ∈ s)) = false := by simp [hw.1, hw.2]
        simp only [findCandCost, hw', Bool.false_eq_true, if_false, Cost.call]
        have h3 := h1.1
        unfold outDeg at h2
        have hs : s' = s1 ∧ (r = none → r1 = none) := by
          cases r1 with
          | some p => cases h; exact ⟨rfl, fun h => by cases h⟩
          | none =>
            dsimp only at h
            split at h <;> cases h <;> exact ⟨rfl, fun _ => rfl⟩
        rw [hs.1]
        refine ⟨by omega, fun hr => ?_⟩
        have h4 := h1.2 (by rw [hs.2 (not_not.1 hr)]; simp)
        omega

theorem candTop_calls (hwf : g.WF) (fuel : Nat) (cs : List Node) : ∀ seen r, (∀ n ∈ cs, n ∈ g.nodes) →
    findCandTop g res f used fuel cs seen = some r →
    (findCandTopCost g res f used fuel cs seen).calls ≤ cs.length + workLeft g f.waiting seen := by
  induction cs with
  | nil => intro s r _ _; simp [findCandTopCost, Cost.zero]
  | cons n cs ih =>
    intro s r hns h
    rw [findCandTop] at h
    cases hc : findCand g res f used fuel n s with
    | none => rw [hc] at h; cases h
    | some q =>
      obtain ⟨r1, s1⟩ := q
      have h1 := cand_calls hwf fuel n s r1 s1 (hns n List.mem_cons_self) hc
      rw [hc] at h
      cases r1 with
      | none =>
        have h2 := ih s1 r (fun m hm => hns m (List.mem_cons_of_mem _ hm)) h
        have h4 := h1.2 (by simp)
        simp only [findCandTopCost, hc, Cost.seq, List.length_cons]
        omega
      | some p =>
        simp only [findCandTopCost, hc, List.length_cons]
        have := h1.1
        omega

theorem cand_depth (fuel : Nat) : ∀ n s, 0 < fuel →
    ∃ c : List Node, c.IsChain (AfterEdge g) ∧ c.head? = some n ∧
      c.length = (findCandCost g res f used fuel n s).depth ∧
      ∀ m ∈ c.dropLast, f.waiting m = true := by
  induction fuel with
  | zero => intro n s h; omega
  | succ fuel ih =>
    have loop : ∀ (n : Node) (es : List Edge) (s : List Node), (∀ e ∈ es, AfterEdge g n e.tgt) →
        ∃ c : List Node, (n :: c).IsChain (AfterEdge g) ∧
          c.length = (candLoopCost (findCand g res f used fuel) (findCandCost g res f used fuel) es s).depth ∧
          ∀ m ∈ c.dropLast, f.waiting m = true := by
      intro n es
      induction es with
      | nil => intro s _; exact ⟨[], by simp, rfl, by simp⟩
      | cons e es ihe =>
        intro s hes
        have hone : ∃ c : List Node, (n :: c).IsChain (AfterEdge g) ∧
            c.length = (findCandCost g res f used fuel e.tgt s).depth ∧
            ∀ m ∈ c.dropLast, f.waiting m = true := by
          cases fuel with
          | zero => exact ⟨[], by simp, rfl, by simp⟩
          | succ fuel =>
            obtain ⟨c, h1, h2, h3, h4⟩ := ih e.tgt s (by omega)
            refine ⟨c, ?_, h3, h4⟩
            cases c with
            | nil => simp
            | cons a c =>
              cases h2
              rw [List.isChain_cons_cons]
              exact ⟨hes e List.mem_cons_self, h1⟩
        cases hc : findCand g res f used fuel e.tgt s with
        | none => simpa only [candLoopCost, hc] using hone
        | some q =>
          obtain ⟨r1, s1⟩ := q
          cases r1 with
          | none =>
            simp only [candLoopCost, hc, Cost.seq]
            rcases Nat.le_total (findCandCost g res f used fuel e.tgt s).depth
              (candLoopCost (findCand g res f used fuel) (findCandCost g res f used fuel) es s1).depth
              with hm | hm
            · rw [Nat.max_eq_right hm]
              exact ihe s1 fun e' he' => hes e' (List.mem_cons_of_mem _ he')
            · rw [Nat.max_eq_left hm]; exact hone
          | some p => simpa only [candLoopCost, hc] using hone
    intro n s _
    simp only [findCandCost, Cost.call]
    split
    · exact ⟨[n], by simp, rfl, rfl, by simp⟩
    · rename_i hw
      obtain ⟨c, h1, h2, h3⟩ := loop n (filterEdges .after (g.outEdges n)) (n :: s)
        fun e he => hasEdge_of_mem he
      refine ⟨n :: c, h1, rfl, by simp [h2], fun m hm => ?_⟩
      cases c with
      | nil => simp at hm
      | cons a c =>
        rw [List.dropLast_cons_cons] at hm
        rcases List.mem_cons.1 hm with rfl | hm
        · simp only [Bool.or_eq_true, not_or, Bool.not_eq_true] at hw
          simp [Flags.waiting, hw.1.1, hw.1.2]
        · exact h3 m hm

theorem candTop_depth (fuel : Nat) (hf : 0 < fuel) (cs : List Node) : ∀ s,
    ∃ c : List Node, c.IsChain (AfterEdge g) ∧
      c.length = (findCandTopCost g res f used fuel cs s).depth ∧ ∀ m ∈ c.dropLast, f.waiting m = true := by
  induction cs with
  | nil => intro s; exact ⟨[], by simp, rfl, by simp⟩
  | cons n ns ih =>
    intro s
    obtain ⟨c, h1, _, h3, h4⟩ := cand_depth (g := g) (res := res) (f := f) (used := used) fuel n s hf
    cases hc : findCand g res f used fuel n s with
    | none => simp only [findCandTopCost, hc]; exact ⟨c, h1, h3, h4⟩
    | some q =>
      obtain ⟨r1, s1⟩ := q
      cases r1 with
      | none =>
        simp only [findCandTopCost, hc, Cost.seq]
        rcases Nat.le_total (findCandCost g res f used fuel n s).depth
          (findCandTopCost g res f used fuel ns s1).depth with hm | hm
        · rw [Nat.max_eq_right hm]; exact ih s1
        · rw [Nat.max_eq_left hm]; exact ⟨c, h1, h3, h4⟩
      | some p => simp only [findCandTopCost, hc]; exact ⟨c, h1, h3, h4⟩

end

/-! ## invalidation -/

theorem propVisits_spec (hwf : g.WF) : ∀ (fuel : Nat) (ex tp seen : List Node) (s : PSt),
    unseen g ex < fuel → tp.Pairwise (· < ·) → (∀ x ∈ tp, x ∈ g.nodes) → (∀ x ∈ tp, x ∉ ex) →
    (∀ x ∈ ex, x ∈ seen) →
    (propVisits g fuel tp seen s).Nodup ∧
    (∀ x ∈ propVisits g fuel tp seen s, x ∉ ex ∧ x ∈ g.nodes ∧
      ∃ m ∈ tp, Relation.ReflTransGen (HasEdge g .invalidatedBy) x m) ∧
    (∀ x ∈ tp, x ∈ propVisits g fuel tp seen s) ∧
    ∀ p ∈ propVisits g fuel tp seen s, ∀ y, HasEdge g .invalidatedBy y p →
      y ∈ seen ∨ y ∈ propVisits g fuel tp seen s := by
  intro fuel
  induction fuel with
  | zero => intro ex tp seen s h; omega
  | succ fuel ih =>
    intro ex tp seen s hf hsort hnodes hdisj hsub
    cases tp with
    | nil => simp [propVisits]
    | cons p tp =>
      have hpn := hnodes p List.mem_cons_self
      have hpex := hdisj p List.mem_cons_self
      rw [List.pairwise_cons] at hsort
      obtain ⟨e1, e2, -, -, -⟩ := propEdges_spec (p :: seen)
        (filterEdges .invalidatedBy (g.inEdges p)) tp s hsort.2
      have hedge : ∀ x, (∃ e ∈ filterEdges .invalidatedBy (g.inEdges p), e.src = x) ↔
          HasEdge g .invalidatedBy x p := by
        intro x
        constructor
        · rintro ⟨e, he, rfl⟩
          obtain ⟨h1, h2, h3⟩ := mem_filterEdges_in.1 he
          cases e; simp_all [HasEdge]
        · intro h
          exact ⟨⟨x, p, .invalidatedBy⟩, mem_filterEdges_in.2 ⟨h, rfl, rfl⟩, rfl⟩
      simp only [hedge] at e2
      generalize hR : propEdges (p :: seen) (filterEdges .invalidatedBy (g.inEdges p)) tp s = R at e1 e2
      obtain ⟨i1, i2, i3, i4⟩ := ih (p :: ex) R.1 (p :: seen) R.2
        (by have := unseen_lt hpn hpex; omega) e1
        (fun x hx => by
          rcases (e2 x).1 hx with h | ⟨_, h⟩
          · exact hnodes x (List.mem_cons_of_mem _ h)
          · exact (hwf.closed _ h).1)
        (fun x hx hc => by
          rcases (e2 x).1 hx with h | ⟨h, _⟩
          · rcases List.mem_cons.1 hc with rfl | hc
            · exact Nat.lt_irrefl _ (hsort.1 x h)
            · exact hdisj x (List.mem_cons_of_mem _ h) hc
          · rcases List.mem_cons.1 hc with rfl | hc
            · exact h List.mem_cons_self
            · exact h (List.mem_cons_of_mem _ (hsub x hc)))
        (fun x hx => by
          rcases List.mem_cons.1 hx with rfl | hx
          · exact List.mem_cons_self
          · exact List.mem_cons_of_mem _ (hsub x hx))
      simp only [propVisits, hR]
      refine ⟨?_, ?_, ?_, ?_⟩
      · rw [List.nodup_cons]
        exact ⟨fun h => (i2 p h).1 List.mem_cons_self, i1⟩
      · intro x hx
        rcases List.mem_cons.1 hx with rfl | hx
        · exact ⟨hpex, hpn, x, List.mem_cons_self, .refl⟩
        · obtain ⟨a, b, m, hm, hr⟩ := i2 x hx
          refine ⟨fun h => a (List.mem_cons_of_mem _ h), b, ?_⟩
          rcases (e2 m).1 hm with h | ⟨_, h⟩
          · exact ⟨m, List.mem_cons_of_mem _ h, hr⟩
          · exact ⟨p, List.mem_cons_self, hr.tail h⟩
      · intro x hx
        rcases List.mem_cons.1 hx with rfl | hx
        · exact List.mem_cons_self
        · exact List.mem_cons_of_mem _ (i3 x ((e2 x).2 (.inl hx)))
      · intro q hq y hy
        rcases List.mem_cons.1 hq with rfl | hq
        · by_cases hc : y ∈ q :: seen
          · rcases List.mem_cons.1 hc with rfl | hc
            · exact .inr List.mem_cons_self
            · exact .inl hc
          · exact .inr (List.mem_cons_of_mem _ (i3 y ((e2 y).2 (.inr ⟨hc, hy⟩))))
        · rcases i4 q hq y hy with h | h
          · rcases List.mem_cons.1 h with rfl | h
            · exact .inr List.mem_cons_self
            · exact .inl h
          · exact .inr (List.mem_cons_of_mem _ h)

end Joque
