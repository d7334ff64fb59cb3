import Verif.Model.BuildCost
import Verif.Props.Dag
import Verif.Model.Format

/-! # C91: the work of building a dag -/

namespace Joque

/-- number of dependencies in the dag -/
def dependencies (g : Dag) : Nat := (g.edges.filter fun e => decide (e.kind = .requires)).length

/-- what a part of `insert_set` does: `calls` calls, as deep as a chain that begins with one of `ts` -/
structure BuiltWith (E : BEnv) (ts : List TaskId) (s s' : BSt) (c : Cost) (top : Nat) : Prop where
  calls : c.calls + dependencies s.dag = top + dependencies s'.dag
  grow : s.dag.nodes.length ≤ s'.dag.nodes.length
  depth : c.depth ≤ 1 + (s'.dag.nodes.length - s.dag.nodes.length)
  chain : ∃ l : List TaskId, l.IsChain (DependsOn E.store) ∧ l.length = c.depth ∧ ∀ t ∈ l.head?, t ∈ ts

theorem addEdge_deps {s s' : BSt} {t d : TaskId} {k : EKind} (h : s.addEdge t d k = some s') :
    dependencies s'.dag = dependencies s.dag + (if k = .requires then 1 else 0) ∧
    s'.dag.nodes = s.dag.nodes := by
  unfold BSt.addEdge at h
  split at h
  · cases h
    refine ⟨?_, rfl⟩
    unfold dependencies Dag.addEdge
    by_cases hk : k = .requires <;> simp [hk]
  · cases h

theorem addDep_deps {s s' : BSt} {t d : TaskId} (h : s.addDep t d = some s') :
    dependencies s'.dag = dependencies s.dag + 1 ∧ s'.dag.nodes = s.dag.nodes := by
  unfold BSt.addDep at h
  obtain ⟨s1, h1, h⟩ := Option.bind_eq_some_iff.1 h
  obtain ⟨s2, h2, h3⟩ := Option.bind_eq_some_iff.1 h
  obtain ⟨a1, b1⟩ := addEdge_deps h1
  obtain ⟨a2, b2⟩ := addEdge_deps h2
  obtain ⟨a3, b3⟩ := addEdge_deps h3
  refine ⟨?_, by rw [b3, b2, b1]⟩
  simp at a1 a2 a3
  omega

theorem addEdge_names {s s' : BSt} {t d : TaskId} {k : EKind} (h : s.addEdge t d k = some s') :
    s'.tmp = s.tmp := by
  unfold BSt.addEdge at h
  split at h
  · cases h; rfl
  · cases h

theorem addDep_names {s s' : BSt} {t d : TaskId} (h : s.addDep t d = some s') : s'.tmp = s.tmp := by
  unfold BSt.addDep at h
  obtain ⟨s1, h1, h⟩ := Option.bind_eq_some_iff.1 h
  obtain ⟨s2, h2, h3⟩ := Option.bind_eq_some_iff.1 h
  rw [addEdge_names h3, addEdge_names h2, addEdge_names h1]

/-- names are kept -/
def KeepsNames (s s' : BSt) : Prop := ∀ t n, mget s.tmp t = some n → mget s'.tmp t = some n

theorem depsLoop_names {rec : TaskId → BSt → BOut} (ih : ∀ t s s', rec t s = .ok s' → KeepsNames s s')
    (t : TaskId) : ∀ (ds : List TaskId) (s s' : BSt), depsLoop rec t ds s = .ok s' → KeepsNames s s' := by
  intro ds
  induction ds with
  | nil => intro s s' h; cases h; exact fun _ _ h => h
  | cons d ds ihd =>
    intro s s' h
    rw [depsLoop] at h
    cases hr : rec d s with
    | ub => rw [hr] at h; cases h
    | outOfFuel => rw [hr] at h; cases h
    | ok s1 =>
      rw [hr] at h
      dsimp only at h
      cases ha : s1.addDep t d with
      | none => rw [ha] at h; cases h
      | some s2 =>
        rw [ha] at h
        intro x n hx
        refine ihd s2 s' h x n ?_
        rw [addDep_names ha]
        exact ih d s s1 hr x n hx

theorem bdfs_names (E : BEnv) : ∀ (fuel : Nat) (t : TaskId) (s s' : BSt), bdfs E fuel t s = .ok s' →
    KeepsNames s s' := by
  intro fuel
  induction fuel with
  | zero => intro t s s' h; cases h
  | succ fuel ih =>
    intro t s s' h
    rw [bdfs] at h
    cases hi : mget s.index t with
    | some a => rw [hi] at h; cases h; exact fun _ _ h => h
    | none =>
      rw [hi] at h
      dsimp only at h
      cases ht : mget s.tmp t with
      | some name => rw [ht] at h; exact fun x n hx => depsLoop_names ih t _ _ _ h x n hx
      | none =>
        rw [ht] at h
        dsimp only at h
        by_cases hr : E.rehash s.tmp.length = true
        · rw [if_pos hr] at h; cases h
        · rw [if_neg hr] at h
          intro x n hx
          refine depsLoop_names ih t _ _ _ h x n ?_
          have : t ≠ x := fun he => by subst he; rw [ht] at hx; cases hx
          simp [BSt.emplace, mget, this, hx]

theorem depsLoop_cost {E : BEnv} {rec : TaskId → BSt → BOut} {cost : TaskId → BSt → Cost}
    (ih : ∀ t s s', rec t s = .ok s' → BuiltWith E [t] s s' (cost t s) 1) (t : TaskId) :
    ∀ (ds : List TaskId) (s s' : BSt), depsLoop rec t ds s = .ok s' →
      BuiltWith E ds s s' (depsLoopCost rec cost t ds s) 0 := by
  intro ds
  induction ds with
  | nil =>
    intro s s' h
    cases h
    exact ⟨by simp [depsLoopCost, Cost.zero], le_refl _, by simp [depsLoopCost, Cost.zero],
      [], by simp, by simp [depsLoopCost, Cost.zero], by simp⟩
  | cons d ds ihd =>
    intro s s' h
    rw [depsLoop] at h
    rw [depsLoopCost]
    cases hr : rec d s with
    | ub => rw [hr] at h; cases h
    | outOfFuel => rw [hr] at h; cases h
    | ok s1 =>
      rw [hr] at h
      dsimp only at h ⊢
      cases ha : s1.addDep t d with
      | none => rw [ha] at h; cases h
      | some s2 =>
        rw [ha] at h
        dsimp only at h ⊢
        have h1 := ih d s s1 hr
        obtain ⟨h2, h2'⟩ := addDep_deps ha
        have h3 := ihd s2 s' h
        have c1 := h1.calls
        have c3 := h3.calls
        have g1 := h1.grow
        have g3 := h3.grow
        have d1 := h1.depth
        have d3 := h3.depth
        rw [h2'] at g3 d3
        refine ⟨by simp only [Cost.seq]; omega, by omega, ?_, ?_⟩
        · simp only [Cost.seq]
          omega
        · obtain ⟨l1, i1, e1, m1⟩ := h1.chain
          obtain ⟨l3, i3, e3, m3⟩ := h3.chain
          rcases le_total (cost d s).depth (depsLoopCost rec cost t ds s2).depth with hle | hle
          · exact ⟨l3, i3, by simp only [Cost.seq]; omega, fun x hx => by simp [m3 x hx]⟩
          · exact ⟨l1, i1, by simp only [Cost.seq]; omega, fun x hx => by
              have := m1 x hx
              simp at this; simp [this]⟩

theorem bdfs_cost (E : BEnv) : ∀ (fuel : Nat) (t : TaskId) (s s' : BSt), bdfs E fuel t s = .ok s' →
    BuiltWith E [t] s s' (bdfsCost E fuel t s) 1 := by
  intro fuel
  induction fuel with
  | zero => intro t s s' h; cases h
  | succ fuel ih =>
    intro t s s' h
    have key : ∀ s0 : BSt, dependencies s0.dag = dependencies s.dag →
        s0.dag.nodes.length = s.dag.nodes.length + 1 →
        depsLoop (bdfs E fuel) t (E.store t).dependsOn s0 = .ok s' →
        BuiltWith E [t] s s' (Cost.call 0
          (depsLoopCost (bdfs E fuel) (bdfsCost E fuel) t (E.store t).dependsOn s0)) 1 := by
      intro s0 hd hl h0
      have h1 := depsLoop_cost ih t _ _ _ h0
      have c1 := h1.calls
      have g1 := h1.grow
      have d1 := h1.depth
      refine ⟨by simp only [Cost.call]; omega, by omega, by simp only [Cost.call]; omega, ?_⟩
      obtain ⟨l, i, e, m⟩ := h1.chain
      refine ⟨t :: l, List.isChain_cons.2 ⟨fun y hy => ?_, i⟩, by simp [Cost.call, e], by simp⟩
      exact m y hy
    rw [bdfs] at h
    rw [bdfsCost]
    cases hi : mget s.index t with
    | some a =>
      rw [hi] at h
      cases h
      exact ⟨by simp [Cost.call, Cost.zero], le_refl _, by simp [Cost.call, Cost.zero],
        [t], by simp, by simp [Cost.call, Cost.zero], by simp⟩
    | none =>
      rw [hi] at h
      dsimp only at h ⊢
      cases ht : mget s.tmp t with
      | some name =>
        rw [ht] at h
        exact key _ rfl (by simp [BSt.emplace, Dag.emplace]) h
      | none =>
        rw [ht] at h
        dsimp only at h ⊢
        by_cases hr : E.rehash s.tmp.length = true
        · rw [if_pos hr] at h; cases h
        · rw [if_neg hr] at h ⊢
          exact key _ rfl (by simp [BSt.emplace, Dag.emplace]) h

theorem tmpLoop_cost (E : BEnv) (fuel : Nat) (filter : Str) : ∀ (visit : List TaskId) (s s' : BSt),
    tmpLoop E fuel filter visit s = .ok s' → ∃ top, top ≤ visit.length ∧
      BuiltWith E visit s s' (tmpLoopCost E fuel filter visit s) top := by
  intro visit
  induction visit with
  | nil =>
    intro s s' h
    cases h
    exact ⟨0, le_refl _, by simp [tmpLoopCost, Cost.zero], le_refl _, by simp [tmpLoopCost, Cost.zero],
      [], by simp, by simp [tmpLoopCost, Cost.zero], by simp⟩
  | cons t ts ih =>
    intro s s' h
    have weaken : ∀ {c : Cost} {s s' top}, BuiltWith E ts s s' c top → BuiltWith E (t :: ts) s s' c top :=
      fun hb => ⟨hb.calls, hb.grow, hb.depth, by
        obtain ⟨l, i, e, m⟩ := hb.chain
        exact ⟨l, i, e, fun x hx => by simp [m x hx]⟩⟩
    rw [tmpLoop] at h
    rw [tmpLoopCost]
    cases ht : mget s.tmp t with
    | none =>
      rw [ht] at h
      obtain ⟨top, h1, h2⟩ := ih s s' h
      exact ⟨top, by simp; omega, weaken h2⟩
    | some n =>
      rw [ht] at h
      dsimp only at h ⊢
      by_cases hf : containsStr n filter = true
      · rw [if_pos hf] at h ⊢
        cases hb : bdfs E fuel t s with
        | ub => rw [hb] at h; cases h
        | outOfFuel => rw [hb] at h; cases h
        | ok s1 =>
          rw [hb] at h
          dsimp only at h ⊢
          have h1 := bdfs_cost E fuel t s s1 hb
          obtain ⟨top, htop, h3⟩ := ih s1 s' h
          have c1 := h1.calls
          have c3 := h3.calls
          have g1 := h1.grow
          have g3 := h3.grow
          have d1 := h1.depth
          have d3 := h3.depth
          refine ⟨top + 1, by simp; omega, by simp only [Cost.seq]; omega, by omega,
            by simp only [Cost.seq]; omega, ?_⟩
          obtain ⟨l1, i1, e1, m1⟩ := h1.chain
          obtain ⟨l3, i3, e3, m3⟩ := h3.chain
          rcases le_total (bdfsCost E fuel t s).depth (tmpLoopCost E fuel filter ts s1).depth with hle | hle
          · exact ⟨l3, i3, by simp only [Cost.seq]; omega, fun x hx => by simp [m3 x hx]⟩
          · exact ⟨l1, i1, by simp only [Cost.seq]; omega, fun x hx => by
              have := m1 x hx
              simp at this; simp [this]⟩
      · rw [if_neg hf] at h ⊢
        obtain ⟨top, h1, h2⟩ := ih s s' h
        exact ⟨top, by simp; omega, weaken h2⟩

theorem addSoft_deps {n : Node} {k : EKind} (hk : k ≠ .requires) : ∀ (ds : List TaskId) (s : BSt),
    dependencies (addSoft s n k ds).dag = dependencies s.dag ∧ (addSoft s n k ds).dag.nodes = s.dag.nodes := by
  intro ds
  induction ds with
  | nil => intro s; exact ⟨rfl, rfl⟩
  | cons d ds ih =>
    intro s
    rw [addSoft]
    split
    · exact ih s
    · obtain ⟨h1, h2⟩ := ih { s with dag := s.dag.addEdge n _ k }
      rw [h1, h2]
      refine ⟨?_, rfl⟩
      simp [dependencies, Dag.addEdge, hk]

theorem indexLoop_deps (E : BEnv) : ∀ (ts : List TaskId) (s : BSt),
    dependencies (indexLoop E ts s).dag = dependencies s.dag ∧ (indexLoop E ts s).dag.nodes = s.dag.nodes := by
  intro ts
  induction ts with
  | nil => intro s; exact ⟨rfl, rfl⟩
  | cons t ts ih =>
    intro s
    rw [indexLoop]
    split
    · exact ih s
    · dsimp only
      rw [(ih _).1, (ih _).2, (addSoft_deps (by decide) _ _).1, (addSoft_deps (by decide) _ _).2,
        (addSoft_deps (by decide) _ _).1, (addSoft_deps (by decide) _ _).2]
      exact ⟨rfl, rfl⟩

/-- **C91**, building the dag: `dfs` is called at most once for every task of the set and once for every
dependency put into the dag; it goes as deep as some chain of tasks each of which depends on the next, and
(also if dependencies go in a circle) at most one deeper than there are new nodes. -/
theorem C91_build (E : BEnv) (fuel : Nat) (g : Dag) (ts : TaskSet) (filter : Str) (visit : List TaskId)
    (order : List TaskId → List TaskId) (s : BSt) (h : insertSet E fuel g ts filter visit order = .ok s) :
    let cost := insertSetCost E fuel g ts filter visit
    cost.calls + dependencies g ≤ visit.length + dependencies s.dag ∧
    cost.depth ≤ 1 + (s.dag.nodes.length - g.nodes.length) ∧
    ∃ c : List TaskId, c.IsChain (DependsOn E.store) ∧ c.length = cost.depth ∧ ∀ t ∈ c.head?, t ∈ visit := by
  intro cost
  unfold insertSet at h
  dsimp only at h
  split at h
  · rename_i s0 h0
    cases h
    obtain ⟨top, ht, hb⟩ := tmpLoop_cost E fuel filter visit _ _ h0
    obtain ⟨e1, e2⟩ := indexLoop_deps E (order (s0.index.map Prod.fst)) s0
    rw [e1, e2]
    have hc := hb.calls
    have hd := hb.depth
    exact ⟨by show (tmpLoopCost _ _ _ _ _).calls + _ ≤ _; dsimp only at hc; omega, hd, hb.chain⟩
  · cases h
  · cases h

theorem tmpLoop_calls (E : BEnv) (fuel : Nat) : ∀ (visit : List TaskId) (s s' : BSt),
    (∀ t ∈ visit, ∃ n, mget s.tmp t = some n) → tmpLoop E fuel [] visit s = .ok s' →
    (tmpLoopCost E fuel [] visit s).calls + dependencies s.dag = visit.length + dependencies s'.dag := by
  intro visit
  induction visit with
  | nil => intro s s' _ h; cases h; simp [tmpLoopCost, Cost.zero]
  | cons t ts ih =>
    intro s s' hin h
    obtain ⟨n, hn⟩ := hin t (by simp)
    have hf : containsStr n [] = true := by cases n <;> simp [containsStr]
    rw [tmpLoop, hn] at h
    rw [tmpLoopCost, hn]
    dsimp only at h ⊢
    rw [if_pos hf] at h ⊢
    cases hb : bdfs E fuel t s with
    | ub => rw [hb] at h; cases h
    | outOfFuel => rw [hb] at h; cases h
    | ok s1 =>
      rw [hb] at h
      dsimp only at h ⊢
      have c1 := (bdfs_cost E fuel t s s1 hb).calls
      have c2 := ih s1 s' (fun x hx => by
        obtain ⟨m, hm⟩ := hin x (by simp [hx])
        exact ⟨m, bdfs_names E fuel t s s1 hb x m hm⟩) h
      simp only [Cost.seq, List.length_cons]
      omega

/-- **C91**, building the dag: without a filter the bound on the calls is reached, if no task outside the
set is met. -/
theorem C91_build_all (E : BEnv) (fuel : Nat) (g : Dag) (ts : TaskSet) (visit : List TaskId)
    (order : List TaskId → List TaskId) (s : BSt) (hv : ∀ t ∈ visit, ts.Has t)
    (h : insertSet E fuel g ts [] visit order = .ok s) :
    (insertSetCost E fuel g ts [] visit).calls + dependencies g = visit.length + dependencies s.dag := by
  unfold insertSet at h
  dsimp only at h
  split at h
  · rename_i s0 h0
    cases h
    rw [(indexLoop_deps E (order (s0.index.map Prod.fst)) s0).1]
    refine tmpLoop_calls E fuel visit _ _ (fun t ht => Option.isSome_iff_exists.1 (mget_isSome.2 ?_)) h0
    have := mem_forEachTask_snd.2 (hv t ht)
    simpa using this
  · cases h
  · cases h

namespace Ex

/-- `n` tasks, each depending on the next -/
def chainStore (n : Nat) : Store := fun t => if t + 1 < n then { plain with dependsOn := [t + 1] } else plain

/-- they are called `//0`, `//1`, … -/
def chainSet (n : Nat) : TaskSet := .mk ((List.range n).map fun i => (showNat i, i)) []

end Ex

theorem chain_bdfs_depth (E : BEnv) (n : Nat) (hE : E.store = Ex.chainStore n) : ∀ (fuel t : Nat) (s : BSt),
    t < n → n - t ≤ fuel → (∀ x, t ≤ x → mget s.index x = none) → (∀ x, x < n → ∃ m, mget s.tmp x = some m) →
    (bdfsCost E fuel t s).depth = n - t := by
  intro fuel
  induction fuel with
  | zero => intro t s ht hf; omega
  | succ fuel ih =>
    intro t s ht hf hi hm
    obtain ⟨m, hmt⟩ := hm t ht
    rw [bdfsCost, hi t (le_refl _), hmt]
    dsimp only
    rw [hE]
    unfold Ex.chainStore
    by_cases hlt : t + 1 < n
    · rw [if_pos hlt]
      have key := ih (t + 1) (s.emplace E t m) hlt (by omega) (fun x hx => by
        have h1 : t ≠ x := by omega
        simp [BSt.emplace, mget, h1, hi x (by omega)]) (fun x hx => hm x hx)
      have hd : ∀ a : Cost, (a.seq .zero).depth = a.depth := fun a => by simp [Cost.seq, Cost.zero]
      have : (depsLoopCost (bdfs E fuel) (bdfsCost E fuel) t [t + 1] (s.emplace E t m)).depth = n - (t + 1) := by
        rw [← key, depsLoopCost]
        split
        · split
          · rw [depsLoopCost, hd]
          · rfl
        · rfl
      rw [Cost.call, this]
      dsimp only
      omega
    · rw [if_neg hlt]
      show (Cost.call 0 .zero).depth = _
      simp only [Cost.call, Cost.zero]
      omega

/-- **C91**, building the dag: for a chain of `n` tasks whose first one is met first, `dfs` is nested `n`
deep. -/
theorem C91_build_chain (E : BEnv) (n : Nat) (hE : E.store = Ex.chainStore n) (fuel : Nat) (hf : n ≤ fuel)
    (g : Dag) (visit : List TaskId) (hn : 0 < n) :
    n ≤ (insertSetCost E fuel g (Ex.chainSet n) [] (0 :: visit)).depth := by
  have hm : ∀ x, x < n → ∃ m, mget ((forEachTask (Ex.chainSet n)).map fun e => (e.2, e.1)) x = some m := by
    intro x hx
    refine Option.isSome_iff_exists.1 (mget_isSome.2 ?_)
    have : x ∈ (forEachTask (Ex.chainSet n)).map Prod.snd :=
      mem_forEachTask_snd.2 ⟨[showNat x], .here (List.mem_map.2 ⟨x, List.mem_range.2 hx, rfl⟩)⟩
    simpa using this
  have h := chain_bdfs_depth E n hE fuel 0
    { dag := g, tmp := (forEachTask (Ex.chainSet n)).map (fun e => (e.2, e.1)), index := [] } hn (by omega)
    (fun _ _ => rfl) hm
  obtain ⟨m, hm0⟩ := hm 0 hn
  have hc : containsStr m [] = true := by cases m <;> simp [containsStr]
  rw [insertSetCost, tmpLoopCost, hm0]
  dsimp only
  rw [if_pos hc]
  split
  · simp only [Cost.seq]; omega
  · omega

/-- four tasks and three dependencies: seven calls, nested three deep (13, 12, 10) -/
example : (insertSetCost (Ex.benv fun _ => false) 9 Dag.empty Ex.tree [] [12, 10, 13, 11]) = ⟨7, 2, 0⟩ ∧
    (insertSetCost (Ex.benv fun _ => false) 9 Dag.empty Ex.tree [] [13, 12, 10, 11]) = ⟨7, 3, 0⟩ := by
  decide +kernel

/-- and the theorems apply to it -/
example : ∃ s, insertSet (Ex.benv fun _ => false) 9 Dag.empty Ex.tree [] [12, 10, 13, 11] List.reverse =
    .ok s ∧ dependencies s.dag = 3 ∧ s.dag.nodes.length = 4 := ⟨_, rfl, by decide +kernel, by decide +kernel⟩

/-- two tasks that depend on each other: four calls, nested three deep -/
example : insertSetCost ⟨fun t => { Ex.plain with dependsOn := [1 - t] }, id, fun _ => false⟩ 9 Dag.empty
    (.mk [("a".toList, 0), ("b".toList, 1)] []) [] [0, 1] = ⟨4, 3, 0⟩ := by decide +kernel

end Joque
