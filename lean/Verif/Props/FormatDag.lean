import Verif.Model.FormatDag
import Verif.Props.Dag2

/-! # C47: `format_dag` -/

namespace Joque

/-- the line announcing that a task runs after the tasks called `names` -/
def afterLine (names : List Str) : Str :=
  "   -> runs after {".toList ++
    (if names = [] then [] else " ".toList ++ ", ".toList.intercalate names ++ " ".toList) ++
    "}".toList

/-- `line` lists, once each, the tasks node `n` runs after -/
def ListsAfter (g : Dag) (n : Node) (line : Str) : Prop :=
  ∃ l : List Node, l.Nodup ∧ (∀ m, m ∈ l ↔ AfterEdge g n m) ∧ line = afterLine (l.map g.name)

theorem foldl_names (g : Dag) (es : List Edge) (acc a : Str) :
    es.foldl (fun res e => res ++ (", ".toList ++ g.name e.tgt)) (acc ++ a) =
      acc ++ ", ".toList.intercalate (a :: es.map fun e => g.name e.tgt) := by
  induction es generalizing acc a with
  | nil => simp [List.intercalate]
  | cons e es ih =>
    rw [List.foldl_cons]
    have h : acc ++ a ++ (", ".toList ++ g.name e.tgt) =
        (acc ++ a ++ ", ".toList) ++ g.name e.tgt := by
      simp only [List.append_assoc]
    rw [h, ih, List.map_cons]
    simp only [List.intercalate, List.intersperse_cons_cons, List.flatten_cons, List.append_assoc]

theorem afterLine_join (g : Dag) (es : List Edge) :
    "   -> runs after {".toList ++ joinNames g es ++ "}".toList =
      afterLine (es.map fun e => g.name e.tgt) := by
  unfold afterLine
  generalize "   -> runs after {".toList = x
  generalize "}".toList = y
  cases es with
  | nil => rfl
  | cons e es =>
    rw [List.map_cons, if_neg (List.cons_ne_nil _ _), joinNames, foldl_names]

/-- **C47** the exact output: for every node its name and a line with the targets of all its
edges -/
theorem C47_lines (g : Dag) :
    formatDag g = g.nodes.flatMap fun n =>
      [g.name n, afterLine ((g.edges.filter fun e => e.src = n).map fun e => g.name e.tgt)] := by
  have h : (fun n => [g.name n,
        "   -> runs after {".toList ++ joinNames g (g.outEdges n) ++ "}".toList]) =
      fun n => [g.name n,
        afterLine ((g.edges.filter fun e => e.src = n).map fun e => g.name e.tgt)] := by
    funext n
    rw [afterLine_join, Dag.outEdges]
  unfold formatDag
  rw [h]

/-- **C47** two lines per node -/
theorem C47_pairs (g : Dag) (k : Nat) (n : Node) (hk : g.nodes[k]? = some n) :
    (formatDag g)[2 * k]? = some (g.name n) ∧
    (formatDag g)[2 * k + 1]? =
      some (afterLine ((g.edges.filter fun e => e.src = n).map fun e => g.name e.tgt)) ∧
    (formatDag g).length = 2 * g.nodes.length := by
  rw [C47_lines]
  generalize g.nodes = ns at hk
  refine ⟨?_, ?_, ?_⟩
  · induction ns generalizing k with
    | nil => simp at hk
    | cons a ns ih =>
      cases k with
      | zero => simp at hk; subst hk; rfl
      | succ k => exact ih k (by simpa using hk)
  · induction ns generalizing k with
    | nil => simp at hk
    | cons a ns ih =>
      cases k with
      | zero => simp at hk; subst hk; rfl
      | succ k => exact ih k (by simpa using hk)
  · clear hk
    induction ns with
    | nil => rfl
    | cons a ns ih => simp only [List.flatMap_cons, List.length_append, ih, List.length_cons,
        List.length_nil]; omega

/-- **C47** no task it runs after is missing from the line, for every dag -/
theorem C47_complete (g : Dag) (k : Nat) (n : Node) (hk : g.nodes[k]? = some n) :
    ∃ l : List Node, (formatDag g)[2 * k + 1]? = some (afterLine (l.map g.name)) ∧
      ∀ m, AfterEdge g n m → m ∈ l := by
  refine ⟨(g.edges.filter fun e => e.src = n).map Edge.tgt, ?_, fun m hm => ?_⟩
  · rw [(C47_pairs g k n hk).2.1, List.map_map]
    rfl
  · exact List.mem_map.2 ⟨⟨n, m, .after⟩, List.mem_filter.2 ⟨hm, by simp⟩, rfl⟩

/-- **C47** for a node all of whose edges are AFTER edges, none of them repeated -/
theorem C47_partial (g : Dag) (k : Nat) (n : Node) (hk : g.nodes[k]? = some n)
    (hafter : ∀ e ∈ g.edges, e.src = n → e.kind = .after)
    (honce : ∀ m, g.edges.count ⟨n, m, .after⟩ ≤ 1) :
    ∃ line, (formatDag g)[2 * k + 1]? = some line ∧ ListsAfter g n line := by
  refine ⟨_, (C47_pairs g k n hk).2.1,
    (g.edges.filter fun e => e.src = n).map Edge.tgt, ?_, fun m => ?_, ?_⟩
  · have hn : (g.edges.filter fun e => e.src = n).Nodup := by
      rw [List.nodup_iff_count_le_one]
      rintro ⟨a, b, kd⟩
      by_cases hm : (⟨a, b, kd⟩ : Edge) ∈ g.edges.filter fun e => e.src = n
      · obtain ⟨h1, h2⟩ := List.mem_filter.1 hm
        have h2' : a = n := by simpa using h2
        subst h2'
        have h3 : kd = .after := hafter _ h1 rfl
        subst h3
        exact Nat.le_trans (List.Sublist.count_le _ List.filter_sublist) (honce b)
      · rw [List.count_eq_zero_of_not_mem hm]; exact Nat.zero_le _
    refine hn.map_on ?_
    rintro ⟨a, b, kd⟩ ha ⟨a', b', kd'⟩ ha' hb
    obtain ⟨h1, h2⟩ := List.mem_filter.1 ha
    obtain ⟨h1', h2'⟩ := List.mem_filter.1 ha'
    have e1 : a = n := by simpa using h2
    have e2 : a' = n := by simpa using h2'
    have e3 : kd = .after := hafter _ h1 e1
    have e4 : kd' = .after := hafter _ h1' e2
    have e5 : b = b' := hb
    rw [e1, e2, e3, e4, e5]
  · constructor
    · intro hm
      obtain ⟨⟨a, b, kd⟩, h0, rfl⟩ := List.mem_map.1 hm
      obtain ⟨h1, h2⟩ := List.mem_filter.1 h0
      have e1 : a = n := by simpa using h2
      have e3 : kd = .after := hafter _ h1 e1
      rw [e1, e3] at h1
      exact h1
    · intro hm
      exact List.mem_map.2 ⟨⟨n, m, .after⟩, List.mem_filter.2 ⟨hm, by simp⟩, rfl⟩
  · rw [List.map_map]; rfl

theorem count_tgts (es : List Edge) (a b : Node) :
    ((es.filter fun e => e.src = a).map Edge.tgt).count b =
      es.count ⟨a, b, .after⟩ + es.count ⟨a, b, .requires⟩ + es.count ⟨a, b, .invalidatedBy⟩ := by
  induction es with
  | nil => rfl
  | cons e es ih =>
    obtain ⟨x, y, kd⟩ := e
    simp only [List.count_cons]
    by_cases hx : x = a
    · rw [List.filter_cons_of_pos (by simpa using hx), List.map_cons, List.count_cons, ih]
      by_cases hy : y = b
      · cases kd <;> simp [hx, hy] <;> omega
      · cases kd <;> simp [hx, hy]
    · rw [List.filter_cons_of_neg (by simpa using hx), ih]
      cases kd <;> simp [hx]

/-- **C47** for dags built by `insert_set`, how often each task is listed: three times per
declared dependency, once per declared `run_after` and once per declared `invalidated_by` -/
theorem C47_declared (E : BEnv) (ts : TaskSet) (univ visit : List TaskId)
    (order : List TaskId → List TaskId) (filter : Str) (s : BSt)
    (h : Run E ts univ visit order filter s) (k : Nat) (a : Node)
    (hk : s.dag.nodes[k]? = some a) :
    ∃ l : List Node, (formatDag s.dag)[2 * k + 1]? = some (afterLine (l.map s.dag.name)) ∧
      (∀ b ∈ l, b ∈ s.dag.nodes) ∧
      ∀ b ∈ s.dag.nodes, l.count b =
        3 * (E.store (s.dag.task a)).dependsOn.count (s.dag.task b) +
        (E.store (s.dag.task a)).runAfter.count (s.dag.task b) +
        (E.store (s.dag.task a)).invalidatedBy.count (s.dag.task b) := by
  obtain ⟨fuel, h1, h2⟩ := h.built
  obtain ⟨hc, hwf, _⟩ := C23_empty E ts univ visit order h.env fuel h1 filter s h2
  have ha : a ∈ s.dag.nodes := List.mem_of_getElem? hk
  refine ⟨(s.dag.edges.filter fun e => e.src = a).map Edge.tgt, ?_, fun b hb => ?_,
    fun b hb => ?_⟩
  · rw [(C47_pairs s.dag k a hk).2.1, List.map_map]
    rfl
  · obtain ⟨e, he, rfl⟩ := List.mem_map.1 hb
    exact (hwf.closed e (List.mem_filter.1 he).1).2
  · rw [count_tgts, hc a ha b hb, hc a ha b hb, hc a ha b hb]
    simp only [declared]
    omega

/-- **C47** the claim for a task of a built dag that only declares `run_after`, each at most
once -/
theorem C47_run_after_only (E : BEnv) (ts : TaskSet) (univ visit : List TaskId)
    (order : List TaskId → List TaskId) (filter : Str) (s : BSt)
    (h : Run E ts univ visit order filter s) (k : Nat) (a : Node)
    (hk : s.dag.nodes[k]? = some a)
    (hd : (E.store (s.dag.task a)).dependsOn = [])
    (hi : (E.store (s.dag.task a)).invalidatedBy = [])
    (hr : (E.store (s.dag.task a)).runAfter.Nodup) :
    ∃ line, (formatDag s.dag)[2 * k + 1]? = some line ∧ ListsAfter s.dag a line := by
  obtain ⟨fuel, h1, h2⟩ := h.built
  obtain ⟨hc, hwf, _⟩ := C23_empty E ts univ visit order h.env fuel h1 filter s h2
  have ha : a ∈ s.dag.nodes := List.mem_of_getElem? hk
  refine C47_partial s.dag k a hk ?_ fun m => ?_
  · rintro ⟨x, y, kd⟩ he (rfl : x = a)
    have hy := (hwf.closed _ he).2
    have hp := List.count_pos_iff.2 he
    rw [hc x ha y hy kd] at hp
    cases kd with
    | after => rfl
    | requires => simp only [declared, hd] at hp; exact absurd hp (by simp)
    | invalidatedBy => simp only [declared, hd, hi] at hp; exact absurd hp (by simp)
  · by_cases hm : (⟨a, m, .after⟩ : Edge) ∈ s.dag.edges
    · rw [hc a ha m (hwf.closed _ hm).2]
      simp only [declared, hd, List.count_nil, Nat.zero_add]
      exact List.nodup_iff_count_le_one.1 hr _
    · rw [List.count_eq_zero_of_not_mem hm]; exact Nat.zero_le _

namespace Ex

/-- task 1 is invalidated by task 2 and nothing else -/
def invDag : Dag where
  nodes := [1, 2]
  edges := [⟨1, 2, .invalidatedBy⟩]
  name := fun n => if n = 2 then "a".toList else "b".toList
  task := id

/-- task 2 depends on task 1 -/
def depDag : Dag where
  nodes := [2, 1]
  edges := [⟨2, 1, .invalidatedBy⟩, ⟨2, 1, .requires⟩, ⟨2, 1, .after⟩]
  name := fun n => if n = 1 then "a".toList else "b".toList
  task := id

end Ex

/-- **C47** is false: the line of a task that is invalidated by another one says that it runs
after it, but it may run first. -/
theorem C47_counterexample :
    ∃ g : Dag, g.WF ∧ (∀ n m, ¬ AfterEdge g n m) ∧
      formatDag g = ["b".toList, "   -> runs after { a }".toList, "a".toList,
        "   -> runs after {}".toList] ∧
      ¬ ListsAfter g 1 "   -> runs after { a }".toList ∧
      Ex.begins (exec (execCfg (fun _ => Ex.plain) g 0) (List.replicate 14 .ctl)).trace g =
        [1, 2] := by
  refine ⟨Ex.invDag, ⟨by decide +kernel, by decide +kernel⟩, fun n m h => ?_, by decide +kernel,
    ?_, by decide +kernel⟩
  · have : (⟨n, m, .after⟩ : Edge) ∈ [(⟨1, 2, .invalidatedBy⟩ : Edge)] := h
    simp at this
  · rintro ⟨l, _, h2, h3⟩
    have hl : l = [] := by
      cases l with
      | nil => rfl
      | cons m l =>
        have : (⟨1, m, .after⟩ : Edge) ∈ [(⟨1, 2, .invalidatedBy⟩ : Edge)] :=
          (h2 m).1 List.mem_cons_self
        simp at this
    rw [hl] at h3
    exact absurd h3 (by decide +kernel)

/-- A dependency is listed three times. -/
theorem C47_dependency_counterexample :
    ∃ g : Dag, g.WF ∧
      formatDag g = ["b".toList, "   -> runs after { a, a, a }".toList, "a".toList,
        "   -> runs after {}".toList] ∧
      ¬ ListsAfter g 2 "   -> runs after { a, a, a }".toList := by
  refine ⟨Ex.depDag, ⟨by decide +kernel, by decide +kernel⟩, by decide +kernel, ?_⟩
  rintro ⟨l, h1, h2, h3⟩
  have h4 : ∀ m ∈ l, m = 1 := fun m hm => by
    have : (⟨2, m, .after⟩ : Edge) ∈ Ex.depDag.edges := (h2 m).1 hm
    simpa [Ex.depDag] using this
  match l, h1, h4 with
  | [], _, _ => exact absurd h3 (by decide +kernel)
  | [x], _, h4 =>
    rw [h4 x (by simp)] at h3
    exact absurd h3 (by decide +kernel)
  | x :: y :: l, h1, h4 =>
    rw [h4 x (by simp), h4 y (by simp)] at h1
    simp at h1

/-- the dag of `Ex.arun`: task 11 runs after the three others and declares nothing else -/
example : Ex.ast.dag.nodes[2]?.map Ex.ast.dag.task = some 11 ∧
    (Ex.astore 11).dependsOn = [] ∧ (Ex.astore 11).invalidatedBy = [] ∧
    (Ex.astore 11).runAfter.Nodup ∧
    (formatDag Ex.ast.dag)[5]? = some "   -> runs after { //z/v/u, //z/y, //a }".toList := by
  decide +kernel



end Joque
