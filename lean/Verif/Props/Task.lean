import Verif.Proof.Task

/-! # Properties of task sets: naming (C24) and the bulk helpers (C25) -/

namespace Joque

/-- **C24**, which tasks: `for_each_task` calls its function with exactly the tasks of the tree,
each with its documented full name. -/
theorem C24_visits (ts : TaskSet) (name : Str) (t : TaskId) :
    (name, t) ∈ forEachTask ts ↔ ∃ p, At ts p t ∧ name = fullName p :=
  mem_forEachTask

/-- **C24**, how often: every task object is visited exactly once. -/
theorem C24_once (ts : TaskSet) (h : ts.WF) (t : TaskId) (ht : ts.Has t) :
    ((forEachTask ts).map Prod.snd).count t = 1 := by
  rw [(tasks_nodup h).count, if_pos (mem_forEachTask_snd.2 ht)]

/-- **C24**, in which order: tasks of a set by name, then its subsets by name – so a task always
before the tasks of subsets of its set. -/
theorem C24_order (ts : TaskSet) (h : ts.Keys) :
    ∃ ps : List (List Str × TaskId), forEachTask ts = ps.map (fun e => (fullName e.1, e.2)) ∧
      (∀ e ∈ ps, At ts e.1 e.2) ∧ ps.Pairwise (fun a b => Before a.1 b.1) :=
  ⟨paths ts, forEachTask_paths ts, fun e he => (paths_at ts e.1 e.2).1 he, paths_order ts h⟩

/-- **C24**, distinct names: if no component of the paths contains '/', different positions have
different full names. -/
theorem C24_distinct (ts : TaskSet) (hs : ∀ p t, At ts p t → ∀ c ∈ p, '/' ∉ c) (p q : List Str)
    (t u : TaskId) (hp : At ts p t) (hq : At ts q u) (h : fullName p = fullName q) : p = q :=
  fullName_inj hp.ne_nil hq.ne_nil (hs p t hp) (hs q u hq) h

namespace Ex

/-- `x` in the root set, `y` in subset `z` -/
def tree : TaskSet :=
  .mk [("a".toList, 10), ("x".toList, 11)]
    [("w".toList, .mk [] []), ("z".toList, .mk [("y".toList, 12)] [("v".toList, .mk [("u".toList, 13)] [])])]

end Ex

/-- the names of the documentation -/
example : forEachTask Ex.tree = [("//a".toList, 10), ("//x".toList, 11), ("//z/y".toList, 12),
    ("//z/v/u".toList, 13)] := by decide +kernel

example : At Ex.tree ["z".toList, "y".toList] 12 ∧
    fullName ["z".toList, "y".toList] = "//z/y".toList := by
  refine ⟨.sub (n := "z".toList) (s := .mk [("y".toList, 12)] [("v".toList, .mk [("u".toList, 13)] [])])
    (by simp) (.here (by simp)), ?_⟩
  decide +kernel

theorem Ex.tree_wf : Ex.tree.WF := by
  refine ⟨?_, ?_⟩
  · refine .mk (by decide +kernel) (by decide +kernel) ?_
    intro e he
    simp only [List.mem_cons, List.not_mem_nil, or_false] at he
    rcases he with rfl | rfl
    · exact .mk (by simp) (by simp) (by simp)
    · refine .mk (by simp) (by simp) ?_
      intro e he
      simp only [List.mem_cons, List.not_mem_nil, or_false] at he
      subst he
      exact .mk (by simp) (by simp) (by simp)
  · intro p q t hp hq
    have h1 := (paths_at _ _ _).2 hp
    have h2 := (paths_at _ _ _).2 hq
    have : paths Ex.tree = [(["a".toList], 10), (["x".toList], 11), (["z".toList, "y".toList], 12),
      (["z".toList, "v".toList, "u".toList], 13)] := by decide +kernel
    rw [this] at h1 h2
    simp only [List.mem_cons, List.not_mem_nil, or_false, Prod.mk.injEq] at h1 h2
    rcases h1 with ⟨rfl, rfl⟩ | ⟨rfl, rfl⟩ | ⟨rfl, rfl⟩ | ⟨rfl, rfl⟩ <;>
      rcases h2 with ⟨rfl, h⟩ | ⟨rfl, h⟩ | ⟨rfl, h⟩ | ⟨rfl, h⟩ <;> first | rfl | cases h

/-- the hypothesis of `C24_distinct` is needed: a name containing '/' may collide -/
example : (forEachTask (.mk [("z/y".toList, 1)] [("z".toList, .mk [("y".toList, 2)] [])])).map Prod.fst
    = ["//z/y".toList, "//z/y".toList] := by decide +kernel

/-! ## C25 -/

theorem each_append (put : Task → List TaskId → Task) (get : Task → List TaskId)
    (hgp : ∀ t l, get (put t l) = l) (hpp : ∀ t l l', put (put t l) l' = put t l')
    (hpg : ∀ t, put t (get t) = t) (x : TaskId) :
    ∀ (es : List (Str × TaskId)) (st : Store), (es.map Prod.snd).Nodup → ∀ u,
      es.foldl (fun st e => if e.2 ≠ x then st.set e.2 (put (st e.2) (get (st e.2) ++ [x])) else st) st u
      = put (st u) (get (st u) ++ if u ∈ es.map Prod.snd ∧ u ≠ x then [x] else []) := by
  intro es
  induction es with
  | nil => intro st _ u; simp [hpg]
  | cons e es ih =>
    intro st hnd u
    rw [List.map_cons, List.nodup_cons] at hnd
    rw [List.foldl_cons, ih _ hnd.2]
    by_cases hx : e.2 = x
    · simp only [hx, ne_eq, not_true_eq_false, if_false]
      by_cases hu : u = x
      · subst hu; simp
      · have hm : (u ∈ List.map Prod.snd (e :: es)) = (u ∈ List.map Prod.snd es) := by
          rw [List.map_cons, List.mem_cons, hx]; simp [hu]
        simp only [hm]
    · simp only [ne_eq, hx, not_false_eq_true, if_true]
      by_cases hu : u = e.2
      · subst hu
        have : e.2 ∉ es.map Prod.snd := hnd.1
        simp [Store.set, this, hgp, hpp, hx]
      · have hm : (u ∈ List.map Prod.snd (e :: es)) = (u ∈ List.map Prod.snd es) := by
          rw [List.map_cons, List.mem_cons]; simp [hu]
        simp only [hm]; simp only [Store.set, hu, if_false, ne_eq]

theorem all_append (put : Task → List TaskId → Task) (get : Task → List TaskId)
    (hgp : ∀ t l, get (put t l) = l) (hpp : ∀ t l l', put (put t l) l' = put t l')
    (hpg : ∀ t, put t (get t) = t) (x : TaskId) :
    ∀ (es : List (Str × TaskId)) (st : Store) u,
      es.foldl (fun st e => if x ≠ e.2 then st.set x (put (st x) (get (st x) ++ [e.2])) else st) st u
      = if u = x then put (st x) (get (st x) ++ (es.map Prod.snd).filter (· ≠ x)) else st u := by
  intro es
  induction es with
  | nil => intro st u; simp only [List.foldl_nil, List.map_nil, List.filter_nil, List.append_nil, hpg]; split <;> simp_all
  | cons e es ih =>
    intro st u
    rw [List.foldl_cons, ih]
    by_cases hx : e.2 = x
    · simp [hx]
    · have hx' : x ≠ e.2 := Ne.symm hx
      simp only [ne_eq, hx', not_false_eq_true, if_true]
      by_cases hu : u = x
      · subst hu
        simp [Store.set, hgp, hpp, hx]
      · simp [Store.set, hu]

/-- **C25** `for_each_add_dep`: every task of the set (recursively) other than `dep` gets `dep`
appended to `depends_on`, once; nothing else changes. -/
theorem C25_for_each_add_dep (ts : TaskSet) (h : ts.WF) (dep : TaskId) (st : Store) (u : TaskId) :
    (ts.Has u → u ≠ dep → forEachAddDep ts dep st u =
      { st u with dependsOn := (st u).dependsOn ++ [dep] }) ∧
    (¬ ts.Has u ∨ u = dep → forEachAddDep ts dep st u = st u) := by
  have := each_append (fun t l => { t with dependsOn := l }) Task.dependsOn (fun _ _ => rfl)
    (fun _ _ _ => rfl) (fun _ => rfl) dep (forEachTask ts) st (tasks_nodup h) u
  constructor
  · intro h1 h2
    rw [if_pos ⟨mem_forEachTask_snd.2 h1, h2⟩] at this
    exact this
  · intro h1
    rw [if_neg (by rintro ⟨a, b⟩; exact h1.elim (fun h => h (mem_forEachTask_snd.1 a)) b)] at this
    rw [List.append_nil] at this
    exact this

/-- **C25** `run_each_after` -/
theorem C25_run_each_after (ts : TaskSet) (h : ts.WF) (x : TaskId) (st : Store) (u : TaskId) :
    (ts.Has u → u ≠ x → runEachAfter ts x st u =
      { st u with runAfter := (st u).runAfter ++ [x] }) ∧
    (¬ ts.Has u ∨ u = x → runEachAfter ts x st u = st u) := by
  have := each_append (fun t l => { t with runAfter := l }) Task.runAfter (fun _ _ => rfl)
    (fun _ _ _ => rfl) (fun _ => rfl) x (forEachTask ts) st (tasks_nodup h) u
  constructor
  · intro h1 h2
    rw [if_pos ⟨mem_forEachTask_snd.2 h1, h2⟩] at this
    exact this
  · intro h1
    rw [if_neg (by rintro ⟨a, b⟩; exact h1.elim (fun h => h (mem_forEachTask_snd.1 a)) b)] at this
    rw [List.append_nil] at this
    exact this

/-- `l` lists every task of the set except `t`, each once -/
def AllBut (ts : TaskSet) (t : TaskId) (l : List TaskId) : Prop :=
  l.Nodup ∧ ∀ u, u ∈ l ↔ ts.Has u ∧ u ≠ t

theorem allBut (ts : TaskSet) (h : ts.WF) (t : TaskId) :
    AllBut ts t (((forEachTask ts).map Prod.snd).filter (· ≠ t)) := by
  refine ⟨(tasks_nodup h).filter _, fun u => ?_⟩
  rw [List.mem_filter, mem_forEachTask_snd]
  simp

/-- **C25** `add_dep_to_each`: `t` gets every other task of the set appended to `depends_on`, each
once; nothing else changes. -/
theorem C25_add_dep_to_each (ts : TaskSet) (h : ts.WF) (t : TaskId) (st : Store) :
    (∃ l, AllBut ts t l ∧
      addDepToEach t ts st t = { st t with dependsOn := (st t).dependsOn ++ l }) ∧
    (∀ u, u ≠ t → addDepToEach t ts st u = st u) := by
  have := all_append (fun t l => { t with dependsOn := l }) Task.dependsOn (fun _ _ => rfl)
    (fun _ _ _ => rfl) (fun _ => rfl) t (forEachTask ts) st
  refine ⟨⟨_, allBut ts h t, ?_⟩, fun u hu => ?_⟩
  · have := this t; rw [if_pos rfl] at this; exact this
  · have := this u; rw [if_neg hu] at this; exact this

/-- **C25** `run_after_all_of` -/
theorem C25_run_after_all_of (ts : TaskSet) (h : ts.WF) (t : TaskId) (st : Store) :
    (∃ l, AllBut ts t l ∧
      runAfterAllOf t ts st t = { st t with runAfter := (st t).runAfter ++ l }) ∧
    (∀ u, u ≠ t → runAfterAllOf t ts st u = st u) := by
  have := all_append (fun t l => { t with runAfter := l }) Task.runAfter (fun _ _ => rfl)
    (fun _ _ _ => rfl) (fun _ => rfl) t (forEachTask ts) st
  refine ⟨⟨_, allBut ts h t, ?_⟩, fun u hu => ?_⟩
  · have := this t; rw [if_pos rfl] at this; exact this
  · have := this u; rw [if_neg hu] at this; exact this

/-- **C25** `invalidated_by_all_of` -/
theorem C25_invalidated_by_all_of (ts : TaskSet) (h : ts.WF) (t : TaskId) (st : Store) :
    (∃ l, AllBut ts t l ∧
      invalidatedByAllOf t ts st t = { st t with invalidatedBy := (st t).invalidatedBy ++ l }) ∧
    (∀ u, u ≠ t → invalidatedByAllOf t ts st u = st u) := by
  have := all_append (fun t l => { t with invalidatedBy := l }) Task.invalidatedBy (fun _ _ => rfl)
    (fun _ _ _ => rfl) (fun _ => rfl) t (forEachTask ts) st
  refine ⟨⟨_, allBut ts h t, ?_⟩, fun u hu => ?_⟩
  · have := this t; rw [if_pos rfl] at this; exact this
  · have := this u; rw [if_neg hu] at this; exact this

namespace Ex

def plain : Task :=
  { job := some okJob', dependsOn := [], runAfter := [], invalidatedBy := [], resources := []
    hidden := false }
where okJob' : Job := .callable (.ret ⟨some 0, [], []⟩)

def store : Store := fun _ => plain

end Ex

/-- the helpers on the example tree, with the single task inside the set -/
example : (addDepToEach 11 Ex.tree Ex.store 11).dependsOn = [10, 12, 13] ∧
    (forEachAddDep Ex.tree 12 Ex.store 13).dependsOn = [12] ∧
    (forEachAddDep Ex.tree 12 Ex.store 12).dependsOn = [] ∧
    (runEachAfter Ex.tree 99 Ex.store 12).runAfter = [99] := by decide +kernel

end Joque
