import Verif.Proof.InsertSet3
import Mathlib.Data.List.Perm.Subperm
import Verif.Props.Task
import Verif.Props.Exec1

/-! # Properties of `insert_set` (C22, C23, C27, C52) -/

namespace Joque

/-- the invariant data of a call -/
def fixOf (E : BEnv) (g : Dag) (ts : TaskSet) (univ : List TaskId) : BFix :=
  { E := E, g0 := g, tmp0 := (forEachTask ts).map (fun e => (e.2, e.1)), univ := univ }

theorem has_tmp {ts : TaskSet} {t : TaskId} :
    t ∈ ((forEachTask ts).map (fun e => (e.2, e.1))).map Prod.fst ↔ ts.Has t := by
  rw [tmp_keys, mem_forEachTask_snd]

theorem fixOf_ok {E : BEnv} {g : Dag} {ts : TaskSet} {univ visit : List TaskId}
    {order : List TaskId → List TaskId} (h : BuildEnv E g ts univ visit order) :
    (fixOf E g ts univ).OK where
  allocInj := h.allocInj
  allocFresh := h.allocFresh
  g0wf := h.dag.2
  g0nodup := h.dag.1
  closed := h.closed
  keys := fun t ht => h.univ t (has_tmp.1 ht)

theorem build {E : BEnv} {g : Dag} {ts : TaskSet} {univ visit : List TaskId}
    {order : List TaskId → List TaskId} (h : BuildEnv E g ts univ visit order) {fuel : Nat}
    (hfuel : univ.length < fuel) (filter : Str) :
    match insertSet E fuel g ts filter visit order with
    | .ok s => Built (fixOf E g ts univ) filter s
    | .ub => (∃ u ∈ univ, ¬ ts.Has u) ∧ ∃ k, E.rehash k = true
    | .outOfFuel => False := by
  have := insertSet_spec (fixOf_ok h) hfuel ts rfl filter visit order
    (fun t ht => h.visit t (has_tmp.1 ht)) h.order
  revert this
  show (match insertSet E fuel g ts filter visit order with
    | .ok s => Built (fixOf E g ts univ) filter s
    | .ub => Unsafe (fixOf E g ts univ)
    | .outOfFuel => False) → _
  split
  · exact id
  · rintro ⟨⟨u, h1, h2⟩, h3⟩
    exact ⟨⟨u, h1, fun h => h2 (has_tmp.2 h)⟩, h3⟩
  · exact id

theorem build_ok {E : BEnv} {g : Dag} {ts : TaskSet} {univ visit : List TaskId}
    {order : List TaskId → List TaskId} (h : BuildEnv E g ts univ visit order) {fuel : Nat}
    (hfuel : univ.length < fuel) {filter : Str} {s : BSt}
    (hs : insertSet E fuel g ts filter visit order = .ok s) :
    Built (fixOf E g ts univ) filter s := by
  have := build h hfuel filter
  rw [hs] at this
  exact this

/-- the tasks of the set as universe, if there are no external dependencies -/
theorem BuildEnv.ofNoExternal {E : BEnv} {g : Dag} {ts : TaskSet} {univ visit : List TaskId}
    {order : List TaskId → List TaskId} (h : BuildEnv E g ts univ visit order)
    (hne : NoExternal E.store ts) :
    BuildEnv E g ts ((forEachTask ts).map Prod.snd) visit order :=
  { h with
    closed := fun t ht d hd => mem_forEachTask_snd.2 (hne t (mem_forEachTask_snd.1 ht) d hd)
    univ := fun t ht => mem_forEachTask_snd.2 ht }

/-- nodes that a call of `insert_set` added to `g` -/
def newNodes (g : Dag) (s : BSt) : List Node := s.dag.nodes.filter (· ∉ g.nodes)

theorem newNodes_eq {F : BFix} (hF : F.OK) {s : BSt} (hI : BInv F s) :
    newNodes F.g0 s = s.index.map Prod.snd := by
  have h1 : ∀ x ∈ s.index.map Prod.snd, x ∉ F.g0.nodes := by
    intro x hx hx'
    obtain ⟨e, he, rfl⟩ := List.mem_map.1 hx
    obtain ⟨i, _, hi⟩ := hI.nodesAlloc e he
    rw [hi] at hx'
    exact hF.allocFresh i hx'
  unfold newNodes
  rw [hI.nodes, List.filter_append, List.filter_eq_self.2, List.filter_eq_nil_iff.2,
    List.append_nil]
  · intro x hx; simpa using hx
  · intro x hx; simpa using h1 x hx

/-- **C22**, which tasks.  `insert_set` adds one node per selected task – matching the filter, or
reachable from a matching one through `depends_on` – and none for any other task, whatever the
iteration orders of the hash maps. -/
theorem C22_selected (E : BEnv) (g : Dag) (ts : TaskSet) (univ visit : List TaskId)
    (order : List TaskId → List TaskId) (h : BuildEnv E g ts univ visit order) (fuel : Nat)
    (hfuel : univ.length < fuel) (filter : Str) (s : BSt)
    (hs : insertSet E fuel g ts filter visit order = .ok s) :
    ((newNodes g s).map s.dag.task).Nodup ∧
    (∀ t, t ∈ (newNodes g s).map s.dag.task ↔ Selected E.store ts filter t) ∧
    (∀ n ∈ newNodes g s, ∀ p, At ts p (s.dag.task n) → s.dag.name n = fullName p) := by
  have hb := build_ok h hfuel hs
  have hF := fixOf_ok h
  have hn : newNodes g s = s.index.map Prod.snd := newNodes_eq hF hb.inv
  have hm : (newNodes g s).map s.dag.task = s.index.map Prod.fst := by
    rw [hn, List.map_map]
    apply List.map_congr_left
    intro e he
    exact (hb.inv.data e he).1
  refine ⟨hm ▸ hb.inv.keysNodup, fun t => ?_, fun n hnn p hp => ?_⟩
  · rw [hm, ← mget_isSome, hb.sel]
    exact sel_iff (F := fixOf E g ts univ) h.set rfl filter t
  · rw [hn] at hnn
    obtain ⟨e, he, rfl⟩ := List.mem_map.1 hnn
    obtain ⟨h1, h2⟩ := hb.inv.data e he
    rw [h1] at hp
    rw [h2]
    have : mget (fixOf E g ts univ).tmp0 e.1 = some (fullName p) :=
      (mget_tmp h.set).2 ⟨p, hp, rfl⟩
    rw [this]; rfl

/-- **C22**, it always works when dependencies stay inside the set. -/
theorem C22_defined (E : BEnv) (g : Dag) (ts : TaskSet) (univ visit : List TaskId)
    (order : List TaskId → List TaskId) (h : BuildEnv E g ts univ visit order)
    (hne : NoExternal E.store ts) (fuel : Nat) (hfuel : univ.length < fuel) (filter : Str) :
    ∃ s, insertSet E fuel g ts filter visit order = .ok s := by
  have hfuel' : ((forEachTask ts).map Prod.snd).length < fuel := by
    refine Nat.lt_of_le_of_lt ?_ hfuel
    have hnd := tasks_nodup h.set
    exact (List.subperm_of_subset hnd (fun t ht => h.univ t (mem_forEachTask_snd.1 ht))).length_le
  have := build (h.ofNoExternal hne) hfuel' filter
  revert this
  split
  · rename_i s hs; intro _; exact ⟨s, hs⟩
  · rintro ⟨⟨u, h1, h2⟩, _⟩
    exact absurd (mem_forEachTask_snd.1 h1) h2
  · exact False.elim

/-- **C23**.  Between the nodes added, each relation is declared as often as there are edges of
that kind, and nothing connects other nodes. -/
theorem C23_edges (E : BEnv) (g : Dag) (ts : TaskSet) (univ visit : List TaskId)
    (order : List TaskId → List TaskId) (h : BuildEnv E g ts univ visit order) (fuel : Nat)
    (hfuel : univ.length < fuel) (filter : Str) (s : BSt)
    (hs : insertSet E fuel g ts filter visit order = .ok s) :
    (∀ a ∈ newNodes g s, ∀ b ∈ newNodes g s, ∀ k,
      s.dag.edges.count ⟨a, b, k⟩ = declared E.store k (s.dag.task a) (s.dag.task b)) ∧
    (∀ e ∈ s.dag.edges, (e.src ∈ newNodes g s ∧ e.tgt ∈ newNodes g s) ∨ e ∈ g.edges) ∧
    s.dag.WF := by
  have hb := build_ok h hfuel hs
  have hF := fixOf_ok h
  have hn : newNodes g s = s.index.map Prod.snd := newNodes_eq hF hb.inv
  rw [hn]
  refine ⟨fun a ha b hb' k => hb.count ha hb' k, fun e he => ?_, hb.wf hF⟩
  obtain ⟨new, h1, h2⟩ := hb.inv.edges
  rw [h1, List.mem_append] at he
  exact he.imp (h2 e) id

/-- **C23** for `exec(ts, …)`, where the dag starts empty: every edge is a declared relation
between selected tasks, with its multiplicity. -/
theorem C23_empty (E : BEnv) (ts : TaskSet) (univ visit : List TaskId)
    (order : List TaskId → List TaskId) (h : BuildEnv E Dag.empty ts univ visit order)
    (fuel : Nat) (hfuel : univ.length < fuel) (filter : Str) (s : BSt)
    (hs : insertSet E fuel Dag.empty ts filter visit order = .ok s) :
    (∀ a ∈ s.dag.nodes, ∀ b ∈ s.dag.nodes, ∀ k,
      s.dag.edges.count ⟨a, b, k⟩ = declared E.store k (s.dag.task a) (s.dag.task b)) ∧
    s.dag.WF ∧
    (∀ a b, HasEdge s.dag .requires a b → HasEdge s.dag .after a b) := by
  obtain ⟨h1, h2, h3⟩ := C23_edges E _ ts univ visit order h fuel hfuel filter s hs
  have hn : newNodes Dag.empty s = s.dag.nodes := by
    unfold newNodes Dag.empty
    exact List.filter_eq_self.2 (by simp)
  rw [hn] at h1
  refine ⟨h1, h3, fun a b hab => ?_⟩
  have he : (⟨a, b, .requires⟩ : Edge) ∈ s.dag.edges := hab
  obtain ⟨ha, hb⟩ := h3.2 _ he
  have c1 := h1 a ha b hb .requires
  have c2 := h1 a ha b hb .after
  have : 0 < s.dag.edges.count ⟨a, b, .requires⟩ := List.count_pos_iff.2 he
  show (⟨a, b, .after⟩ : Edge) ∈ s.dag.edges
  apply List.count_pos_iff.1
  simp only [declared] at c1 c2
  omega

/-- **C52**.  Inserting a set into a dag that already has content changes nothing about that
content: nodes, names, tasks and edges stay, and no edge connects old and new nodes. -/
theorem C52_existing (E : BEnv) (g : Dag) (ts : TaskSet) (univ visit : List TaskId)
    (order : List TaskId → List TaskId) (h : BuildEnv E g ts univ visit order) (fuel : Nat)
    (hfuel : univ.length < fuel) (filter : Str) (s : BSt)
    (hs : insertSet E fuel g ts filter visit order = .ok s) :
    g.nodes <:+ s.dag.nodes ∧
    (∀ n ∈ g.nodes, s.dag.task n = g.task n ∧ s.dag.name n = g.name n ∧
      s.dag.outEdges n = g.outEdges n ∧ s.dag.inEdges n = g.inEdges n) := by
  have hb := build_ok h hfuel hs
  have hF := fixOf_ok h
  refine ⟨⟨_, hb.inv.nodes.symm⟩, fun n hn => ?_⟩
  obtain ⟨h1, h2⟩ := hb.inv.dataOld n hn
  obtain ⟨new, h3, h4⟩ := hb.inv.edges
  have hdis : ∀ x ∈ s.index.map Prod.snd, x ≠ n := by
    rintro x hx rfl
    obtain ⟨e, he, rfl⟩ := List.mem_map.1 hx
    obtain ⟨i, _, hi⟩ := hb.inv.nodesAlloc e he
    rw [hi] at hn
    exact hF.allocFresh i hn
  refine ⟨h1, h2, ?_, ?_⟩
  · unfold Dag.outEdges
    rw [h3, List.filter_append, List.filter_eq_nil_iff.2, List.nil_append]
    · rfl
    · intro e he; simpa using hdis _ (h4 e he).1
  · unfold Dag.inEdges
    rw [h3, List.filter_append, List.filter_eq_nil_iff.2, List.nil_append]
    · rfl
    · intro e he; simpa using hdis _ (h4 e he).2

/-! ## C27 -/

/-- **C27**, the exact condition.  If a selected task is not in the set – an external dependency –
and every insertion into the map of names rehashes, the call has undefined behaviour. -/
theorem C27_ub (E : BEnv) (g : Dag) (ts : TaskSet) (univ visit : List TaskId)
    (order : List TaskId → List TaskId) (h : BuildEnv E g ts univ visit order) (fuel : Nat)
    (hfuel : univ.length < fuel) (filter : Str) (t : TaskId)
    (ht : Selected E.store ts filter t) (hext : ¬ ts.Has t) (hre : ∀ k, E.rehash k = true) :
    insertSet E fuel g ts filter visit order = .ub := by
  have := build h hfuel filter
  revert this
  split
  · rename_i s _
    intro hb
    have h1 := (hb.sel t).2 ((sel_iff (F := fixOf E g ts univ) h.set rfl filter t).2 ht)
    obtain ⟨k, hk⟩ := hb.inv.ext t (mget_isSome.1 h1) (fun h => hext (has_tmp.1 h))
    rw [show (fixOf E g ts univ).E = E from rfl, hre k] at hk
    cases hk
  · intro _; assumption
  · exact False.elim

/-- **C27_partial**.  If no insertion rehashes, external dependencies are scheduled as well
(`C22_selected` applies), and they are all called "" (their name is not known). -/
theorem C27_partial (E : BEnv) (g : Dag) (ts : TaskSet) (univ visit : List TaskId)
    (order : List TaskId → List TaskId) (h : BuildEnv E g ts univ visit order) (fuel : Nat)
    (hfuel : univ.length < fuel) (filter : Str) (hre : ∀ k, E.rehash k = false) :
    ∃ s, insertSet E fuel g ts filter visit order = .ok s ∧
      (∀ t, t ∈ (newNodes g s).map s.dag.task ↔ Selected E.store ts filter t) ∧
      ∀ n ∈ newNodes g s, ¬ ts.Has (s.dag.task n) → s.dag.name n = [] := by
  have hb := build h hfuel filter
  cases hs : insertSet E fuel g ts filter visit order with
  | ok s =>
    rw [hs] at hb
    refine ⟨s, rfl, (C22_selected E g ts univ visit order h fuel hfuel filter s hs).2.1, ?_⟩
    intro n hn hx
    have : newNodes g s = s.index.map Prod.snd := newNodes_eq (fixOf_ok h) hb.inv
    rw [this] at hn
    obtain ⟨e, he, rfl⟩ := List.mem_map.1 hn
    obtain ⟨h1, h2⟩ := hb.inv.data e he
    rw [h1] at hx
    rw [h2]
    have : mget (fixOf E g ts univ).tmp0 e.1 = none :=
      mget_none.2 (fun h => hx (has_tmp.1 h))
    rw [this]; rfl
  | ub => rw [hs] at hb; obtain ⟨_, k, hk⟩ := hb; rw [hre k] at hk; cases hk
  | outOfFuel => rw [hs] at hb; exact hb.elim

namespace Ex

/-- 13 (`//z/v/u`) depends on 12 and 10, 12 on 10; 11 runs after 13 and is invalidated by 12 -/
def bstore : Store := fun t =>
  if t = 13 then { plain with dependsOn := [12, 10] }
  else if t = 12 then { plain with dependsOn := [10] }
  else if t = 11 then { plain with runAfter := [13], invalidatedBy := [12, 99] }
  else plain

def benv (rehash : Nat → Bool) : BEnv := { store := bstore, alloc := fun k => 100 + k, rehash := rehash }

theorem tree_tasks {t : TaskId} (h : tree.Has t) : t ∈ [10, 11, 12, 13] := by
  have := mem_forEachTask_snd.2 h
  have he : (forEachTask tree).map Prod.snd = [10, 11, 12, 13] := by decide +kernel
  rwa [he] at this

theorem bstore_inside : NoExternal bstore tree := by
  intro t ht d hd
  have h1 := tree_tasks ht
  apply mem_forEachTask_snd.1
  have he : (forEachTask tree).map Prod.snd = [10, 11, 12, 13] := by decide +kernel
  rw [he]
  revert d
  simp only [List.mem_cons, List.not_mem_nil, or_false] at h1
  rcases h1 with rfl | rfl | rfl | rfl <;> intro d hd <;>
    simp [DependsOn, bstore, plain] at hd ⊢
  · simp [hd]
  · rcases hd with rfl | rfl <;> simp

theorem buildEnv (r : Nat → Bool) :
    BuildEnv (benv r) Dag.empty tree [10, 11, 12, 13] [12, 10, 13, 11] List.reverse where
  set := tree_wf
  dag := ⟨by simp [Dag.empty], by simp [Dag.empty]⟩
  allocInj := fun i j h => by simp [benv] at h; omega
  allocFresh := by simp [Dag.empty]
  closed := fun t ht d hd => by
    have : NoExternal bstore tree := bstore_inside
    have ht' : tree.Has t := by
      apply mem_forEachTask_snd.1
      have he : (forEachTask tree).map Prod.snd = [10, 11, 12, 13] := by decide +kernel
      rw [he]; exact ht
    exact tree_tasks (this t ht' d hd)
  univ := fun t ht => tree_tasks ht
  visit := fun t ht => by 
    have := tree_tasks ht
    simp only [List.mem_cons, List.not_mem_nil, or_false] at this
    rcases this with rfl | rfl | rfl | rfl <;> simp
  order := fun l => List.reverse_perm l

def bnames : BOut → List (Str × TaskId)
  | .ok s => s.dag.nodes.map fun n => (s.dag.name n, s.dag.task n)
  | _ => []

def bedges : BOut → List (TaskId × TaskId × EKind)
  | .ok s => s.dag.edges.map fun e => (s.dag.task e.src, s.dag.task e.tgt, e.kind)
  | _ => []

def isUb : BOut → Bool
  | .ub => true
  | _ => false

end Ex

/-- filter "z/y": task 12 and its dependency 10 only -/
example : Ex.bnames (insertSet (Ex.benv fun _ => true) 5 Dag.empty Ex.tree "z/y".toList
    [12, 10, 13, 11] List.reverse) = [("//a".toList, 10), ("//z/y".toList, 12)] := by decide +kernel

/-- filter "u" selects 13, 12, 10; the edges of 13 and 12 -/
example : Ex.bedges (insertSet (Ex.benv fun _ => true) 5 Dag.empty Ex.tree "u".toList
    [12, 10, 13, 11] List.reverse) =
    [(13, 10, .invalidatedBy), (13, 10, .requires), (13, 10, .after),
     (13, 12, .invalidatedBy), (13, 12, .requires), (13, 12, .after),
     (12, 10, .invalidatedBy), (12, 10, .requires), (12, 10, .after)] := by decide +kernel

/-- with everything selected, 11 gets its soft relations; 99, not selected, is ignored -/
example : (Ex.bedges (insertSet (Ex.benv fun _ => true) 5 Dag.empty Ex.tree []
    [12, 10, 13, 11] List.reverse)).filter (·.1 = 11) =
    [(11, 12, .invalidatedBy), (11, 13, .after)] := by decide +kernel

namespace Ex

/-- a set with one task, 10, that depends on 50, declared elsewhere -/
def outer : TaskSet := .mk [("a".toList, 10)] []
def ostore : Store := fun t => if t = 10 then { plain with dependsOn := [50] } else plain
def oenv (rehash : Nat → Bool) : BEnv := { store := ostore, alloc := fun k => 100 + k, rehash := rehash }

theorem outer_at {p t} (h : At outer p t) : p = ["a".toList] ∧ t = 10 := by
  have := (paths_at _ _ _).2 h
  have he : paths outer = [(["a".toList], 10)] := by decide +kernel
  rw [he] at this
  simpa using this

theorem outer_wf : outer.WF := by
  refine ⟨.mk (by simp) (by simp) (by simp), fun p q t hp hq => ?_⟩
  rw [(outer_at hp).1, (outer_at hq).1]

theorem oBuildEnv (r : Nat → Bool) :
    BuildEnv (oenv r) Dag.empty outer [10, 50] [10, 50] id where
  set := outer_wf
  dag := ⟨by simp [Dag.empty], by simp [Dag.empty]⟩
  allocInj := fun i j h => by simp [oenv] at h; omega
  allocFresh := by simp [Dag.empty]
  closed := fun t ht d hd => by
    simp at ht
    rcases ht with rfl | rfl <;> simp [DependsOn, oenv, ostore, plain] at hd ⊢
    exact .inr hd
  univ := fun t ⟨p, hp⟩ => by rw [(outer_at hp).2]; simp
  visit := fun t ⟨p, hp⟩ => by rw [(outer_at hp).2]; simp
  order := fun l => List.Perm.refl l

end Ex

/-- **C27** is false: a task set whose only task depends on a task outside the set.  When the
insertion of the missing name rehashes the map, `insert_set` goes on iterating with an invalid
iterator. -/
theorem C27_counterexample :
    ∃ (E : BEnv) (ts : TaskSet) (univ visit : List TaskId) (order : List TaskId → List TaskId),
      BuildEnv E Dag.empty ts univ visit order ∧ (∀ k, E.rehash k = (k = 1)) ∧
      ∀ fuel, univ.length < fuel → insertSet E fuel Dag.empty ts [] visit order = .ub := by
  refine ⟨Ex.oenv (fun k => k == 1), Ex.outer, [10, 50], [10, 50], id, Ex.oBuildEnv _,
    fun k => by simp [Ex.oenv], fun fuel hf => ?_⟩
  obtain ⟨f, rfl⟩ : ∃ f, fuel = f + 3 := ⟨fuel - 3, by simp at hf; omega⟩
  rfl

/-- without a rehash the external task is scheduled, under the name "" -/
example : Ex.bnames (insertSet (Ex.oenv fun _ => false) 3 Dag.empty Ex.outer [] [10, 50] id) =
    [([], 50), ("//a".toList, 10)] := by decide +kernel

end Joque
