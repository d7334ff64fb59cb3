import Verif.Props.Dag
import Verif.Props.Exec2

/-! # From task sets to executions: C22 at run time, C26 -/

namespace Joque

/-- A completed `exec(ts, tc, vis, filter)` up to the moves `ms` (src/exec.cpp:284-293): the dag
is built from the set and then executed. -/
structure Run (E : BEnv) (ts : TaskSet) (univ visit : List TaskId)
    (order : List TaskId → List TaskId) (filter : Str) (s : BSt) : Prop where
  env : BuildEnv E Dag.empty ts univ visit order
  built : ∃ fuel, univ.length < fuel ∧ insertSet E fuel Dag.empty ts filter visit order = .ok s

theorem Run.wf {E ts univ visit order filter s} (h : Run E ts univ visit order filter s)
    (tc : Nat) : (execCfg E.store s.dag tc).dag.WF := by
  obtain ⟨fuel, h1, h2⟩ := h.built
  exact (C23_empty E ts univ visit order h.env fuel h1 filter s h2).2.1

theorem Run.nodes {E ts univ visit order filter s} (h : Run E ts univ visit order filter s) :
    (s.dag.nodes.map s.dag.task).Nodup ∧
    ∀ t, t ∈ s.dag.nodes.map s.dag.task ↔ Selected E.store ts filter t := by
  obtain ⟨fuel, h1, h2⟩ := h.built
  have hn : newNodes Dag.empty s = s.dag.nodes := by
    unfold newNodes Dag.empty
    exact List.filter_eq_self.2 (by simp)
  have := C22_selected E _ ts univ visit order h.env fuel h1 filter s h2
  rw [hn] at this
  exact ⟨this.1, this.2.1⟩

theorem Run.after {E ts univ visit order filter s} (h : Run E ts univ visit order filter s)
    {a b : Node} (ha : a ∈ s.dag.nodes) (hb : b ∈ s.dag.nodes)
    (hd : s.dag.task b ∈ (E.store (s.dag.task a)).dependsOn ∨
      s.dag.task b ∈ (E.store (s.dag.task a)).runAfter) : AfterEdge s.dag a b := by
  obtain ⟨fuel, h1, h2⟩ := h.built
  have hc := (C23_empty E ts univ visit order h.env fuel h1 filter s h2).1 a ha b hb .after
  show (⟨a, b, .after⟩ : Edge) ∈ s.dag.edges
  apply List.count_pos_iff.1
  rw [hc]
  simp only [declared]
  rcases hd with hd | hd <;> have := List.count_pos_iff.2 hd <;> omega

/-- **C22** at run time.  The record of a finished execution of a task set has one entry per
selected task and none for any other. -/
theorem C22_executed (E : BEnv) (ts : TaskSet) (univ visit : List TaskId)
    (order : List TaskId → List TaskId) (filter : Str) (s : BSt)
    (h : Run E ts univ visit order filter s) (tc : Nat) (ms : List Move)
    (hfin : (exec (execCfg E.store s.dag tc) ms).phase = .finished) :
    ((exec (execCfg E.store s.dag tc) ms).erec.runs.map RunRecord.t).Nodup ∧
    ∀ t, t ∈ (exec (execCfg E.store s.dag tc) ms).erec.runs.map RunRecord.t ↔
      Selected E.store ts filter t := by
  obtain ⟨h1, h2, _⟩ := C02_one_record _ (h.wf tc) ms hfin
  have hm : (exec (execCfg E.store s.dag tc) ms).erec.runs.map RunRecord.t =
      ((exec (execCfg E.store s.dag tc) ms).erec.runs.map RunRecord.node).map s.dag.task := by
    rw [List.map_map]
    apply List.map_congr_left
    intro r hr
    exact (h2 r hr).1
  have hp := h1.map s.dag.task
  rw [← hm] at hp
  refine ⟨hp.nodup_iff.2 h.nodes.1, fun t => ?_⟩
  rw [hp.mem_iff]
  exact h.nodes.2 t

/-- Declared relations are obeyed: a task starts after the selected tasks it depends on or runs
after. -/
theorem C26_declared (E : BEnv) (ts : TaskSet) (univ visit : List TaskId)
    (order : List TaskId → List TaskId) (filter : Str) (s : BSt)
    (h : Run E ts univ visit order filter s) (tc : Nat) (ms : List Move) (pre post : List Event)
    (a b : Node) (m : Bool) (hb : b ∈ s.dag.nodes)
    (htr : (exec (execCfg E.store s.dag tc) ms).trace = pre ++ .jobBegin a m :: post)
    (hd : s.dag.task b ∈ (E.store (s.dag.task a)).dependsOn ∨
      s.dag.task b ∈ (E.store (s.dag.task a)).runAfter) :
    Recorded pre b ∧ ¬ Running pre b ∧ ¬ JobBegan post b := by
  have ha : a ∈ s.dag.nodes := (C02_at_most_once _ (h.wf tc) ms pre post a m htr).1
  exact C01_ordering _ (h.wf tc) ms pre post a b m htr (h.after ha hb hd)

/-- **C26** `run_after_all_of(t, sub)`: `t` starts after all other selected tasks of `sub`
(any task set, e.g. a subset of the one executed) have finished. -/
theorem C26_run_after_all_of (E : BEnv) (ts : TaskSet) (univ visit : List TaskId)
    (order : List TaskId → List TaskId) (filter : Str) (s : BSt)
    (h : Run E ts univ visit order filter s) (sub : TaskSet) (hsub : sub.WF) (t : TaskId)
    (st : Store) (hst : E.store = runAfterAllOf t sub st)
    (tc : Nat) (ms : List Move) (pre post : List Event) (a b : Node) (m : Bool)
    (hb : b ∈ s.dag.nodes) (hat : s.dag.task a = t) (hbs : sub.Has (s.dag.task b))
    (hne : s.dag.task b ≠ t)
    (htr : (exec (execCfg E.store s.dag tc) ms).trace = pre ++ .jobBegin a m :: post) :
    Recorded pre b ∧ ¬ Running pre b ∧ ¬ JobBegan post b := by
  refine C26_declared E ts univ visit order filter s h tc ms pre post a b m hb htr (.inr ?_)
  obtain ⟨⟨l, hl, he⟩, _⟩ := C25_run_after_all_of sub hsub t st
  rw [hst, hat, he]
  exact List.mem_append_right _ ((hl.2 _).2 ⟨hbs, hne⟩)

/-- **C26** `add_dep_to_each(t, sub)` -/
theorem C26_add_dep_to_each (E : BEnv) (ts : TaskSet) (univ visit : List TaskId)
    (order : List TaskId → List TaskId) (filter : Str) (s : BSt)
    (h : Run E ts univ visit order filter s) (sub : TaskSet) (hsub : sub.WF) (t : TaskId)
    (st : Store) (hst : E.store = addDepToEach t sub st)
    (tc : Nat) (ms : List Move) (pre post : List Event) (a b : Node) (m : Bool)
    (hb : b ∈ s.dag.nodes) (hat : s.dag.task a = t) (hbs : sub.Has (s.dag.task b))
    (hne : s.dag.task b ≠ t)
    (htr : (exec (execCfg E.store s.dag tc) ms).trace = pre ++ .jobBegin a m :: post) :
    Recorded pre b ∧ ¬ Running pre b ∧ ¬ JobBegan post b := by
  refine C26_declared E ts univ visit order filter s h tc ms pre post a b m hb htr (.inl ?_)
  obtain ⟨⟨l, hl, he⟩, _⟩ := C25_add_dep_to_each sub hsub t st
  rw [hst, hat, he]
  exact List.mem_append_right _ ((hl.2 _).2 ⟨hbs, hne⟩)

/-- **C26** `add_dep_to_each(t, sub)`: if `t` is selected, so is every other task of `sub`. -/
theorem C26_add_dep_selects (ts : TaskSet) (filter : Str) (sub : TaskSet) (hsub : sub.WF)
    (t : TaskId) (st : Store) (ht : Selected (addDepToEach t sub st) ts filter t) (u : TaskId)
    (hu : sub.Has u) : Selected (addDepToEach t sub st) ts filter u := by
  by_cases hne : u = t
  · rwa [hne]
  · obtain ⟨p, r, h1, h2, h3⟩ := ht
    refine ⟨p, r, h1, h2, h3.tail ?_⟩
    obtain ⟨⟨l, hl, he⟩, _⟩ := C25_add_dep_to_each sub hsub t st
    show u ∈ _
    rw [he]
    exact List.mem_append_right _ ((hl.2 _).2 ⟨hu, hne⟩)

/-- **C26** `run_each_after(sub, t)`: every selected task of `sub` other than `t` starts after
`t`, if `t` is selected. -/
theorem C26_run_each_after (E : BEnv) (ts : TaskSet) (univ visit : List TaskId)
    (order : List TaskId → List TaskId) (filter : Str) (s : BSt)
    (h : Run E ts univ visit order filter s) (sub : TaskSet) (hsub : sub.WF) (t : TaskId)
    (st : Store) (hst : E.store = runEachAfter sub t st)
    (tc : Nat) (ms : List Move) (pre post : List Event) (a b : Node) (m : Bool)
    (hb : b ∈ s.dag.nodes) (hbt : s.dag.task b = t) (has : sub.Has (s.dag.task a))
    (hne : s.dag.task a ≠ t)
    (htr : (exec (execCfg E.store s.dag tc) ms).trace = pre ++ .jobBegin a m :: post) :
    Recorded pre b ∧ ¬ Running pre b ∧ ¬ JobBegan post b := by
  refine C26_declared E ts univ visit order filter s h tc ms pre post a b m hb htr (.inr ?_)
  rw [hst, (C25_run_each_after sub hsub t st _).1 has hne, hbt]
  simp

/-- **C26** `for_each_add_dep(sub, t)` -/
theorem C26_for_each_add_dep (E : BEnv) (ts : TaskSet) (univ visit : List TaskId)
    (order : List TaskId → List TaskId) (filter : Str) (s : BSt)
    (h : Run E ts univ visit order filter s) (sub : TaskSet) (hsub : sub.WF) (t : TaskId)
    (st : Store) (hst : E.store = forEachAddDep sub t st)
    (tc : Nat) (ms : List Move) (pre post : List Event) (a b : Node) (m : Bool)
    (hb : b ∈ s.dag.nodes) (hbt : s.dag.task b = t) (has : sub.Has (s.dag.task a))
    (hne : s.dag.task a ≠ t)
    (htr : (exec (execCfg E.store s.dag tc) ms).trace = pre ++ .jobBegin a m :: post) :
    Recorded pre b ∧ ¬ Running pre b ∧ ¬ JobBegan post b := by
  refine C26_declared E ts univ visit order filter s h tc ms pre post a b m hb htr (.inl ?_)
  rw [hst, (C25_for_each_add_dep sub hsub t st _).1 has hne, hbt]
  simp

/-- **C26** `for_each_add_dep(sub, t)`: if a task of `sub` is selected, `t` is. -/
theorem C26_for_each_add_dep_selects (ts : TaskSet) (filter : Str) (sub : TaskSet)
    (hsub : sub.WF) (t : TaskId) (st : Store) (u : TaskId) (hu : sub.Has u)
    (hs : Selected (forEachAddDep sub t st) ts filter u) :
    Selected (forEachAddDep sub t st) ts filter t := by
  by_cases hne : u = t
  · subst hne; exact hs
  · obtain ⟨p, r, h1, h2, h3⟩ := hs
    refine ⟨p, r, h1, h2, h3.tail ?_⟩
    show t ∈ _
    rw [(C25_for_each_add_dep sub hsub t st u).1 hu hne]
    simp

namespace Ex

/-- task 11 after all others of the tree -/
def astore : Store := runAfterAllOf 11 tree store
def aenv : BEnv := { store := astore, alloc := fun k => 100 + k, rehash := fun _ => true }
def abuilt : BOut := insertSet aenv 5 Dag.empty tree [] [12, 11, 10, 13] List.reverse
def ast : BSt := match abuilt with | .ok s => s | _ => { dag := Dag.empty, tmp := [], index := [] }

theorem astore_deps (t : TaskId) : (astore t).dependsOn = [] := by
  have h := C25_run_after_all_of tree tree_wf 11 store
  unfold astore
  by_cases ht : t = 11
  · obtain ⟨⟨l, _, he⟩, _⟩ := h
    rw [ht, he]; rfl
  · rw [h.2 t ht]; rfl

/-- the hypotheses of the theorems above hold for this set -/
theorem arun : Run aenv tree [10, 11, 12, 13] [12, 11, 10, 13] List.reverse [] ast where
  env :=
    { set := tree_wf
      dag := ⟨by simp [Dag.empty], by simp [Dag.empty]⟩
      allocInj := fun i j h => by simp [aenv] at h; omega
      allocFresh := by simp [Dag.empty]
      closed := fun t _ d hd => by
        have : d ∈ (astore t).dependsOn := hd
        rw [astore_deps] at this; cases this
      univ := fun t ht => tree_tasks ht
      visit := fun t ht => by
        have := tree_tasks ht
        simp only [List.mem_cons, List.not_mem_nil, or_false] at this
        rcases this with rfl | rfl | rfl | rfl <;> simp
      order := fun l => List.reverse_perm l }
  built := ⟨5, by simp, by
    show abuilt = .ok ast
    have hk : (match abuilt with | .ok _ => true | _ => false) = true := by decide +kernel
    unfold ast
    revert hk
    cases abuilt with
    | ok s => intro _; rfl
    | ub => intro hk; cases hk
    | outOfFuel => intro hk; cases hk⟩

def amoves : List Move := List.replicate 26 .ctl
def atrace : List Event := (exec (execCfg astore ast.dag 0) amoves).trace

def begins (tr : List Event) (g : Dag) : List TaskId :=
  tr.filterMap fun e => match e with | .jobBegin n _ => some (g.task n) | _ => none

end Ex

/-- the tasks of the tree run, 11 last although its node has not the highest address -/
example : Ex.begins Ex.atrace Ex.ast.dag = [12, 13, 10, 11] ∧
    (exec (execCfg Ex.astore Ex.ast.dag 0) Ex.amoves).phase = .finished ∧
    Ex.ast.dag.nodes.map Ex.ast.dag.task = [13, 10, 11, 12] := by decide +kernel

end Joque
