import Verif.Proof.InsertFail
import Verif.Props.GraphHeap
import Verif.Props.Inserted

/-! # Running out of memory while a task set is inserted (C102) -/

namespace Joque

/-- The allocations, all of them: what they do to the dag is what `insert_set` does. -/
theorem C102_whole (E : BEnv) (ea : Nat → Nat) (g : Dag) (ts : TaskSet) (visit : List TaskId)
    (order : List TaskId → List TaskId) (fuel : Nat) (filter : Str) (s : BSt)
    (hs : insertSet E fuel g ts filter visit order = .ok s) (k : Nat)
    (hk : (insertAllocs E ea fuel g ts filter visit order).length ≤ k) :
    leftover E ea fuel g ts filter visit order k = s.dag := by
  unfold leftover
  rw [List.take_of_length_le hk]
  exact (takes_insert E ea fuel g ts filter visit order s hs).1

theorem split_ops (E : BEnv) (ea : Nat → Nat) (g : Dag) (ts : TaskSet) (visit : List TaskId)
    (order : List TaskId → List TaskId) (fuel : Nat) (filter : Str) (k : Nat) :
    ∃ rest, dagOps (insertAllocs E ea fuel g ts filter visit order) =
      dagOps ((insertAllocs E ea fuel g ts filter visit order).take k) ++ rest := by
  refine ⟨dagOps ((insertAllocs E ea fuel g ts filter visit order).drop k), ?_⟩
  rw [← dagOps_append, List.take_append_drop]

theorem between {l l' l'' : List Edge} (h : l <:+ l') (h' : l' <:+ l'') (p : Edge → Bool)
    (he : l''.filter p = l.filter p) : l'.filter p = l.filter p := by
  have h1 : l.filter p <:+ l'.filter p := h.filter p
  have h2 : l'.filter p <:+ l''.filter p := h'.filter p
  rw [he] at h2
  exact (h1.eq_of_length_le (h2.length_le)).symm

/-- **C102**, what is left.  Wherever memory runs out, the dag holds what it held before, untouched, and
part of what the call would have added: the nodes and edges it had got to, with the right names and tasks.
It is a well-formed dag (so it can be executed or destroyed). -/
theorem C102_part (E : BEnv) (ea : Nat → Nat) (g : Dag) (ts : TaskSet) (univ visit : List TaskId)
    (order : List TaskId → List TaskId) (h : BuildEnv E g ts univ visit order) (fuel : Nat)
    (hfuel : univ.length < fuel) (filter : Str) (s : BSt)
    (hs : insertSet E fuel g ts filter visit order = .ok s) (k : Nat) :
    let d := leftover E ea fuel g ts filter visit order k
    g.nodes <:+ d.nodes ∧ d.nodes <:+ s.dag.nodes ∧ g.edges <:+ d.edges ∧ d.edges <:+ s.dag.edges ∧
    (∀ n ∈ d.nodes, d.name n = s.dag.name n ∧ d.task n = s.dag.task n) ∧ d.WF ∧
    (∀ n ∈ g.nodes, d.name n = g.name n ∧ d.task n = g.task n ∧ d.outEdges n = g.outEdges n ∧
      d.inEdges n = g.inEdges n) := by
  intro d
  obtain ⟨h1, h2⟩ := takes_insert E ea fuel g ts filter visit order s hs
  obtain ⟨rest, hr⟩ := split_ops E ea g ts visit order fuel filter k
  have hwf : s.dag.WF := (C23_edges E g ts univ visit order h fuel hfuel filter s hs).2.2
  rw [hr, List.foldl_append] at h1
  rw [hr, DOk.append] at h2
  have hd : rest.foldl DOp.onDag d = s.dag := h1
  obtain ⟨n1, e1⟩ := onDag_suffix (dagOps ((insertAllocs E ea fuel g ts filter visit order).take k)) g
  obtain ⟨n2, e2⟩ := onDag_suffix rest d
  have hdata := onDag_data rest d (by rw [hd]; exact hwf.1)
  rw [hd] at n2 e2 hdata
  obtain ⟨_, hold⟩ := C52_existing E g ts univ visit order h fuel hfuel filter s hs
  refine ⟨n1, n2, e1, e2, fun n hn => ⟨(hdata n hn).1.symm, (hdata n hn).2.symm⟩,
    ⟨n2.sublist.nodup hwf.1, dok_wf h2.1 h.dag.2⟩, fun n hn => ?_⟩
  obtain ⟨o1, o2, o3, o4⟩ := hold n hn
  have hn' : n ∈ d.nodes := n1.subset hn
  refine ⟨(hdata n hn').1.symm.trans o2, (hdata n hn').2.symm.trans o1, ?_, ?_⟩
  · exact between e1 e2 _ o3
  · exact between e1 e2 _ o4

/-! ## When nothing was added -/

theorem tmp_start (E : BEnv) (ea : Nat → Nat) (fuel : Nat) (hf : 0 < fuel) (filter : Str)
    (l : List TaskId) (s : BSt) (hi : s.index = []) :
    (tmpLoopAlloc E ea fuel filter l s = [] ∧ tmpLoop E fuel filter l s = .ok s) ∨
    ∃ a name t rest, tmpLoopAlloc E ea fuel filter l s = .op (.emplace a name t) :: rest := by
  induction l with
  | nil => exact .inl ⟨rfl, rfl⟩
  | cons t l ih =>
    unfold tmpLoopAlloc tmpLoop
    cases h1 : mget s.tmp t with
    | none => exact ih
    | some n =>
      dsimp only
      by_cases h2 : containsStr n filter = true
      · rw [if_pos h2]
        obtain ⟨fuel, rfl⟩ := Nat.exists_eq_succ_of_ne_zero (by omega : fuel ≠ 0)
        right
        have h3 : mget s.index t = none := by rw [hi]; rfl
        rw [bdfsAlloc]
        simp only [h3, h1]
        exact ⟨_, _, _, _, rfl⟩
      · rw [if_neg h2, if_neg h2]
        exact ih

/-- **C102**, exactly when the call has no effect: if memory runs out before the first node is made, that
is among the names, of which there is one for each task of the set (or if there is nothing to add). -/
theorem C102_exact (E : BEnv) (ea : Nat → Nat) (g : Dag) (ts : TaskSet) (univ visit : List TaskId)
    (order : List TaskId → List TaskId) (h : BuildEnv E g ts univ visit order) (fuel : Nat)
    (hfuel : univ.length < fuel) (filter : Str) (s : BSt)
    (hs : insertSet E fuel g ts filter visit order = .ok s) (k : Nat) :
    (leftover E ea fuel g ts filter visit order k = g ↔
      k ≤ (forEachTask ts).length ∨ ∀ t, ¬ Selected E.store ts filter t) ∧
    (leftover E ea fuel g ts filter visit order k ≠ g →
      g.nodes.length < (leftover E ea fuel g ts filter visit order k).nodes.length) := by
  have key : (k ≤ (forEachTask ts).length ∨ (∀ t, ¬ Selected E.store ts filter t) →
      leftover E ea fuel g ts filter visit order k = g) ∧
      (¬ (k ≤ (forEachTask ts).length ∨ ∀ t, ¬ Selected E.store ts filter t) →
      g.nodes.length < (leftover E ea fuel g ts filter visit order k).nodes.length) := by
    obtain ⟨_, hsel, _⟩ := C22_selected E g ts univ visit order h fuel hfuel filter s hs
    have hst := tmp_start E ea fuel (by omega) filter visit
      { dag := g, tmp := (forEachTask ts).map (fun e => (e.2, e.1)), index := [] } rfl
    refine ⟨?_, ?_⟩
    · rintro (h1 | h1)
      · unfold leftover insertAllocs
        dsimp only
        rw [List.take_append_of_le_length (by rw [List.length_map]; exact h1), ← List.map_take, dagOps_map]
        rfl
      · rcases hst with ⟨h2, h3⟩ | ⟨a, name, t, rest, h2⟩
        · unfold leftover insertAllocs
          simp only [h2, h3]
          have : order ([] : List TaskId) = [] := List.perm_nil.1 (h.order [])
          simp only [List.map_nil, this, indexLoopAlloc, List.append_nil]
          rw [← List.map_take, dagOps_map]
          rfl
        · exfalso
          have hw := C102_whole E ea g ts visit order fuel filter s hs _ (Nat.le_refl _)
          unfold leftover at hw
          rw [List.take_length] at hw
          have ha : a :: g.nodes <:+ s.dag.nodes := by
            rw [← hw]
            unfold insertAllocs
            simp only [h2]
            rw [dagOps_append, dagOps_map, List.nil_append]
            exact (onDag_suffix _ (g.emplace a name t)).1
          have hwf : s.dag.WF := (C23_edges E g ts univ visit order h fuel hfuel filter s hs).2.2
          have hnd : (a :: g.nodes).Nodup := ha.sublist.nodup hwf.1
          have hm : a ∈ newNodes g s := by
            unfold newNodes
            rw [List.mem_filter]
            exact ⟨ha.subset (by simp), by simpa using (List.nodup_cons.1 hnd).1⟩
          exact h1 _ ((hsel _).1 (List.mem_map_of_mem hm))
    · intro hno
      obtain ⟨h1, h1'⟩ := not_or.1 hno
      rcases hst with ⟨h2, h3⟩ | ⟨a, name, t, rest, h2⟩
      · exfalso
        refine h1' fun t ht => ?_
        have hmem := (hsel t).2 ht
        have hw := C102_whole E ea g ts visit order fuel filter s hs _ (Nat.le_refl _)
        unfold leftover insertAllocs at hw
        have hord : order ([] : List TaskId) = [] := List.perm_nil.1 (h.order [])
        simp only [h2, h3, List.map_nil, hord, indexLoopAlloc, List.append_nil] at hw
        rw [← List.map_take, dagOps_map] at hw
        replace hw : g = s.dag := hw
        unfold newNodes at hmem
        rw [← hw] at hmem
        obtain ⟨n, hn, -⟩ := List.mem_map.1 hmem
        have := List.mem_filter.1 hn
        simp [this.1] at this
      · have ha : a :: g.nodes <:+ (leftover E ea fuel g ts filter visit order k).nodes := by
          unfold leftover insertAllocs
          simp only [h2]
          rw [List.take_append, List.length_map]
          obtain ⟨j, hj⟩ : ∃ j, k - (forEachTask ts).length = j + 1 := ⟨k - (forEachTask ts).length - 1, by omega⟩
          rw [hj, dagOps_append, ← List.map_take, dagOps_map, List.nil_append, List.cons_append,
            List.take_succ_cons]
          exact (onDag_suffix _ (g.emplace a name t)).1
        exact ha.length_le
  refine ⟨⟨fun he => ?_, key.1⟩, fun hne => key.2 fun hh => hne (key.1 hh)⟩
  refine Classical.byContradiction fun hno => ?_
  have := key.2 hno
  rw [he] at this
  exact absurd this (Nat.lt_irrefl _)

/-! ## The objects on the heap -/

theorem gok_append (os os' : List GOp) (a : Graphs) :
    GOk a (os ++ os') ↔ GOk a os ∧ GOk (GOp.run a os) os' := by
  induction os generalizing a with
  | nil => simp [GOk, GOp.run]
  | cons o os ih => simp only [List.cons_append, GOk, ih, and_assoc]; rfl

theorem gok_dok {G : Nat} {ea : Nat → Nat} (hinj : ∀ i j, ea i = ea j → i = j) (os : List DOp) (a : Graphs)
    (d : Dag) (hG : a.graphs G) (hn : a.seq G = d.nodes) (ho : ∀ g, g ≠ G → a.seq g = [])
    (hfr : ∀ j, d.edges.length ≤ j → ea j ∉ a.edges.map Prod.fst) (hok : DOk ea d os)
    (hnd : (os.foldl DOp.onDag d).nodes.Nodup) : GOk a (os.map (DOp.onHeap G)) := by
  induction os generalizing a d with
  | nil => trivial
  | cons o os ih =>
    rw [List.foldl_cons] at hnd
    have hal : ∀ n ∈ d.nodes, a.Alive n := fun n hm => ⟨G, hn ▸ hm⟩
    cases o with
    | emplace x name t =>
      refine ⟨⟨hG, ?_⟩, ih ((GOp.emplace G x).apply a) (d.emplace x name t) hG ?_ ?_ hfr hok.2 hnd⟩
      · rintro ⟨g, hg⟩
        have hx : (x :: d.nodes).Nodup := (onDag_suffix os (d.emplace x name t)).1.sublist.nodup hnd
        by_cases hgG : g = G
        · subst hgG
          exact (List.nodup_cons.1 hx).1 (hn ▸ hg)
        · rw [ho g hgG] at hg
          cases hg
      · show fset a.seq G (x :: a.seq G) G = x :: d.nodes
        rw [fset_same, hn]
      · intro g hg
        show fset a.seq G (x :: a.seq G) g = []
        rw [fset_other _ _ hg]
        exact ho g hg
    | addEdge e s t k =>
      obtain ⟨he, hs, ht⟩ := hok.1
      refine ⟨⟨he ▸ hfr _ (Nat.le_refl _), hal s hs, hal t ht⟩,
        ih ((GOp.addEdge e s t k).apply a) (d.addEdge s t k) hG hn ho ?_ hok.2 hnd⟩
      intro j hj
      have hj' : d.edges.length + 1 ≤ j := hj
      show ea j ∉ e :: a.edges.map Prod.fst
      rw [List.mem_cons, not_or]
      refine ⟨fun hje => ?_, hfr j (by omega)⟩
      rw [he] at hje
      have := hinj _ _ hje
      omega

theorem onHeap_edges (G : Nat) (os : List DOp) (a : Graphs) :
    ∀ x ∈ (GOp.run a (os.map (DOp.onHeap G))).edges.map Prod.fst, x ∈ a.edges.map Prod.fst ∨
      ∃ s t k, DOp.addEdge x s t k ∈ os := by
  induction os generalizing a with
  | nil => intro x hx; exact .inl hx
  | cons o os ih =>
    intro x hx
    rcases ih ((o.onHeap G).apply a) x hx with h | ⟨s, t, k, h⟩
    · cases o with
      | emplace y name t => exact .inl h
      | addEdge e s t k =>
        rcases List.mem_cons.1 h with rfl | h
        · exact .inr ⟨s, t, k, List.mem_cons_self⟩
        · exact .inl h
    · exact .inr ⟨s, t, k, List.mem_cons_of_mem _ h⟩

theorem onHeap_seq (G : Nat) (os : List DOp) (a : Graphs) (g : Nat) (hg : g ≠ G) :
    (GOp.run a (os.map (DOp.onHeap G))).seq g = a.seq g := by
  induction os generalizing a with
  | nil => rfl
  | cons o os ih =>
    refine (ih ((o.onHeap G).apply a)).trans ?_
    cases o with
    | emplace y name t => exact fset_other _ _ hg
    | addEdge e s t k => rfl

theorem onHeap_freed (G fuel : Nat) (os : List DOp) (a b : GH)
    (h : a.ops fuel (os.map (DOp.onHeap G)) = some b) : b.freed = a.freed := by
  induction os generalizing a with
  | nil => cases h; rfl
  | cons o os ih =>
    obtain ⟨c, hc, hcb⟩ := Option.bind_eq_some_iff.1 h
    rw [ih c hcb]
    cases o with
    | emplace x name t =>
      obtain ⟨N, _, rfl⟩ := Option.map_eq_some_iff.1 (show a.emplace G x = some c from hc)
      rfl
    | addEdge e s t k =>
      obtain ⟨O, _, hO⟩ := Option.bind_eq_some_iff.1 (show a.addEdge e s t k = some c from hc)
      obtain ⟨I, _, rfl⟩ := Option.map_eq_some_iff.1 hO
      rfl

/-- **C102_partial**.  No leak and no dangling pointer: let the dag be made by hand (by `os0`, perhaps
empty as in `exec(task_set, …)`), and let memory run out anywhere in `insert_set`.  The linked objects are
exactly the dag that is left; destroying it, which `exec` does as the exception passes, is free of undefined
behaviour, and every node and every edge that was allocated is freed once. -/
theorem C102_partial (os0 : List DOp) (G : Nat) (E : BEnv) (ea : Nat → Nat) (ts : TaskSet)
    (univ visit : List TaskId) (order : List TaskId → List TaskId)
    (h : BuildEnv E (os0.foldl DOp.onDag Dag.empty) ts univ visit order) (fuel : Nat)
    (hfuel : univ.length < fuel) (filter : Str) (s : BSt)
    (hs : insertSet E fuel (os0.foldl DOp.onDag Dag.empty) ts filter visit order = .ok s)
    (hok : GOk Graphs.init (.newGraph G :: os0.map (DOp.onHeap G)))
    (hinj : ∀ i j, ea i = ea j → i = j) (hfr : ∀ j s t k, DOp.addEdge (ea j) s t k ∉ os0) (k : Nat) :
    let g := os0.foldl DOp.onDag Dag.empty
    let os := os0 ++ dagOps ((insertAllocs E ea fuel g ts filter visit order).take k)
    let d := leftover E ea fuel g ts filter visit order k
    ∀ fuel', os.length + 3 < fuel' →
    ∃ hp hp', GH.empty.ops fuel' (.newGraph G :: os.map (DOp.onHeap G)) = some hp ∧
      hp.nodes fuel' G = some d.nodes ∧
      (∀ n ∈ d.nodes, hp.outEdges fuel' n = some (d.outEdges n) ∧ hp.inEdges fuel' n = some (d.inEdges n)) ∧
      hp.destroyGraph fuel' G = some hp' ∧
      hp'.freed.Perm ((os.map (DOp.onHeap G)).flatMap GOp.creates) ∧ hp'.freed.Nodup := by
  intro g os d fuel' hf
  obtain ⟨_, _, _, _, _, hwf, _⟩ := C102_part E ea g ts univ visit order h fuel hfuel filter s hs k
  obtain ⟨_, h2⟩ := takes_insert E ea fuel g ts filter visit order s hs
  obtain ⟨rest, hr⟩ := split_ops E ea g ts visit order fuel filter k
  rw [hr, DOk.append] at h2
  have hd : os.foldl DOp.onDag Dag.empty = d := List.foldl_append
  -- the whole sequence is legal
  have hgok : GOk Graphs.init (.newGraph G :: os.map (DOp.onHeap G)) := by
    have e : (GOp.newGraph G :: os.map (DOp.onHeap G)) = (GOp.newGraph G :: os0.map (DOp.onHeap G)) ++
        (dagOps ((insertAllocs E ea fuel g ts filter visit order).take k)).map (DOp.onHeap G) := by
      simp [os]
    rw [e, gok_append]
    refine ⟨hok, ?_⟩
    have hrun : GOp.run Graphs.init (.newGraph G :: os0.map (DOp.onHeap G))
      = GOp.run ((GOp.newGraph G).apply Graphs.init) (os0.map (DOp.onHeap G)) := rfl
    obtain ⟨r1, r2, r3⟩ := run_onHeap G os0 ((GOp.newGraph G).apply Graphs.init) Dag.empty
      (fset_same _ _ _) rfl (.inl rfl)
    rw [hrun]
    refine gok_dok hinj _ _ g r3 r1 ?_ ?_ h2.1 hwf.1
    · intro x hx
      rw [onHeap_seq G _ _ x hx]
      exact fset_other _ _ hx
    · intro j _ hmem
      rcases onHeap_edges G os0 _ _ hmem with h' | ⟨s, t, k, h'⟩
      · cases h'
      · exact hfr _ _ _ _ h'
  obtain ⟨hp, hp0, e1, _, e3, _, e4⟩ := C53_refines G (G + 1) (by omega) os hgok fuel' (by omega)
  have hlen : (GOp.newGraph G :: os.map (DOp.onHeap G)).length < fuel' := by
    rw [List.length_cons, List.length_map]; omega
  have hgr : (GOp.run Graphs.init (.newGraph G :: os.map (DOp.onHeap G))).graphs G :=
    (run_onHeap G os ((GOp.newGraph G).apply Graphs.init) Dag.empty (fset_same _ _ _) rfl (.inl rfl)).2.2
  obtain ⟨hp', new, e5, e6, e7, _⟩ := C31_destroy _ hgok fuel' hlen hp e1 G hgr
  rw [hd] at e3 e4
  refine ⟨hp, hp', e1, e3, fun n hn => ⟨(e4 n hn).1, (e4 n hn).2.1⟩, e5, ?_⟩
  -- destroying it as part of the program
  have hall : GOk Graphs.init ((.newGraph G :: os.map (DOp.onHeap G)) ++ [.destroyGraph G]) := by
    rw [gok_append]
    exact ⟨hgok, hgr, trivial⟩
  have hgone : ∀ x, ¬ (GOp.run Graphs.init ((.newGraph G :: os.map (DOp.onHeap G)) ++ [.destroyGraph G])).graphs x := by
    intro x hx
    have e : GOp.run Graphs.init ((.newGraph G :: os.map (DOp.onHeap G)) ++ [.destroyGraph G]) =
        (GOp.destroyGraph G).apply (GOp.run Graphs.init (.newGraph G :: os.map (DOp.onHeap G))) := by
      simp [GOp.run]
    rw [e] at hx
    obtain ⟨hx1, hx2⟩ := hx
    have : ∀ (os : List DOp) (a : Graphs), (GOp.run a (os.map (DOp.onHeap G))).graphs = a.graphs := by
      intro os
      induction os with
      | nil => intro a; rfl
      | cons o os ih => intro a; exact (ih ((o.onHeap G).apply a)).trans (by cases o <;> rfl)
    have hx3 : (GOp.run ((GOp.newGraph G).apply Graphs.init) (os.map (DOp.onHeap G))).graphs x := hx2
    rw [this] at hx3
    rcases hx3 with hx3 | hx3
    · exact hx1 hx3
    · exact hx3
  have happ : ∀ (l l' : List GOp) (a b : GH), a.ops fuel' l = some b →
      a.ops fuel' (l ++ l') = b.ops fuel' l' := by
    intro l
    induction l with
    | nil => intro l' a b hab; cases hab; rfl
    | cons o l ih =>
      intro l' a b hab
      obtain ⟨c, hc, hcb⟩ := Option.bind_eq_some_iff.1 hab
      show (a.op fuel' o).bind _ = _
      rw [hc]
      exact ih l' c b hcb
  have hops : GH.empty.ops fuel' ((.newGraph G :: os.map (DOp.onHeap G)) ++ [.destroyGraph G]) = some hp' := by
    rw [happ _ _ _ _ e1]
    show (hp.destroyGraph fuel' G).bind _ = _
    rw [e5]
    rfl
  have hperm := C31_no_leak _ hall fuel' (by simp; omega) hp' hops hgone
  have hcr : ((GOp.newGraph G :: os.map (DOp.onHeap G)) ++ [GOp.destroyGraph G]).flatMap GOp.creates =
      (os.map (DOp.onHeap G)).flatMap GOp.creates := by
    simp [GOp.creates]
  rw [hcr] at hperm
  refine ⟨hperm, ?_⟩
  have hnil : hp.freed = [] := by
    obtain ⟨c, hc, hcb⟩ := Option.bind_eq_some_iff.1 e1
    have hc' : GH.empty.newGraph G = c := Option.some.inj hc
    rw [onHeap_freed G fuel' os c hp hcb, ← hc']
    rfl
  rw [e6, hnil]
  exact e7

/-! ## It is not all or nothing -/

/-- **C102** is false: of a set whose tasks `a` and `c` depend on `lib`, `a` is inserted, and memory runs out
when the node of `lib` is made.  The dag is left with `a` alone; executing it executes `a` without what it
depends on, and reports OK. -/
theorem C102_counterexample : ∃ (E : BEnv) (ea : Nat → Nat) (ts : TaskSet) (univ visit : List TaskId)
    (order : List TaskId → List TaskId) (fuel : Nat) (filter : Str) (s : BSt) (k : Nat),
    BuildEnv E Dag.empty ts univ visit order ∧ univ.length < fuel ∧
    insertSet E fuel Dag.empty ts filter visit order = .ok s ∧
    k < (insertAllocs E ea fuel Dag.empty ts filter visit order).length ∧
    0 ∈ (E.store 1).dependsOn ∧
    let d := leftover E ea fuel Dag.empty ts filter visit order k
    d.nodes.map d.task = [1] ∧
    ∃ ms, (exec (execCfg E.store d 0) ms).phase = .finished ∧
      (exec (execCfg E.store d 0) ms).erec.runs.map (fun r => (r.t, r.status)) = [(1, .ok)] := by
  refine ⟨Ex.libEnv 10, (100 + ·), Ex.libSet, [0, 1, 2], [0, 1, 2], id, 4, "/a".toList,
    match Ex.lib1 with | .ok s => s | _ => ⟨Dag.empty, [], []⟩, 5,
    Ex.libBuildEnv 10 Dag.empty ⟨by simp [Dag.empty], by simp [Dag.empty]⟩ (by simp [Dag.empty]), by decide,
    rfl, by decide +kernel, by decide +kernel, by decide +kernel, List.replicate 11 .ctl, by decide +kernel,
    by decide +kernel⟩

/-- the allocations of that call: three names, `a` and its entry, `lib` and its entry, three edges -/
example : (insertAllocs (Ex.libEnv 10) (100 + ·) 4 Dag.empty Ex.libSet "/a".toList [0, 1, 2] id).map
    (fun | .map => (0, 0) | .op (.emplace a _ t) => (a, t) | .op (.addEdge e _ _ _) => (e, 0)) =
    [(0, 0), (0, 0), (0, 0), (10, 1), (0, 0), (11, 0), (0, 0), (100, 0), (101, 0), (102, 0)] := by
  decide +kernel

/-- after 0-3, 4-5, 6-7, 8, 9 and 10 of them -/
example : (List.range 11).map (fun k =>
    let d := leftover (Ex.libEnv 10) (100 + ·) 4 Dag.empty Ex.libSet "/a".toList [0, 1, 2] id k
    (d.nodes.length, d.edges.length)) =
    [(0, 0), (0, 0), (0, 0), (0, 0), (1, 0), (1, 0), (2, 0), (2, 0), (2, 1), (2, 2), (2, 3)] := by
  decide +kernel

/-- **C102**.  Calling `insert_set` again with the dag the exception left does not repair it: the new
call makes a node of its own for every selected task, next to those that are left; nothing orders the
two (C97). -/
theorem C102_retry (E E2 : BEnv) (ea : Nat → Nat) (g : Dag) (ts : TaskSet)
    (univ visit univ2 visit2 : List TaskId) (order order2 : List TaskId → List TaskId)
    (h : BuildEnv E g ts univ visit order) (fuel fuel2 : Nat) (hfuel : univ.length < fuel)
    (filter : Str) (s s2 : BSt) (hs : insertSet E fuel g ts filter visit order = .ok s) (k : Nat)
    (hst : E2.store = E.store)
    (h2 : BuildEnv E2 (leftover E ea fuel g ts filter visit order k) ts univ2 visit2 order2)
    (hfuel2 : univ2.length < fuel2)
    (hs2 : insertSet E2 fuel2 (leftover E ea fuel g ts filter visit order k) ts filter visit2 order2 =
      .ok s2) (t : TaskId) :
    let d := leftover E ea fuel g ts filter visit order k
    let one := open Classical in if Selected E.store ts filter t then 1 else 0
    copies s2.dag t = copies d t + one ∧ copies g t ≤ copies d t ∧ copies d t ≤ copies g t + one := by
  intro d one
  obtain ⟨p1, p2, _, _, p5, _, p7⟩ := C102_part E ea g ts univ visit order h fuel hfuel filter s hs k
  refine ⟨?_, ?_, ?_⟩
  · have := insert_copies h2 hfuel2 hs2 t
    rw [hst] at this
    exact this
  · unfold copies
    have e : g.nodes.countP (fun n => decide (g.task n = t)) =
        g.nodes.countP (fun n => decide (d.task n = t)) :=
      List.countP_congr fun n hn => by rw [(p7 n hn).2.1]
    rw [e]
    exact p1.sublist.countP_le
  · have e1 : copies s.dag t = copies g t + one := insert_copies h hfuel hs t
    rw [← e1]
    unfold copies
    have e : d.nodes.countP (fun n => decide (d.task n = t)) =
        d.nodes.countP (fun n => decide (s.dag.task n = t)) :=
      List.countP_congr fun n hn => by rw [(p5 n hn).2]
    rw [e]
    exact p2.sublist.countP_le

/-- the call of the counterexample is repeated: `a` is there twice and is executed twice -/
example : let d := leftover (Ex.libEnv 10) (100 + ·) 4 Dag.empty Ex.libSet "/a".toList [0, 1, 2] id 5
    let s2 := match insertSet (Ex.libEnv 20) 4 d Ex.libSet "/a".toList [0, 1, 2] id with
      | .ok s => s | _ => ⟨Dag.empty, [], []⟩
    insertSet (Ex.libEnv 20) 4 d Ex.libSet "/a".toList [0, 1, 2] id = .ok s2 ∧
    (copies d 1, copies d 0) = (1, 0) ∧ (copies s2.dag 1, copies s2.dag 0) = (2, 1) ∧
    ∃ ms, (exec (execCfg (Ex.libEnv 20).store s2.dag 0) ms).phase = .finished ∧
      calledFor s2.dag (exec (execCfg (Ex.libEnv 20).store s2.dag 0) ms).trace 1 = 2 := by
  refine ⟨rfl, by decide +kernel, by decide +kernel, List.replicate 21 .ctl, by decide +kernel,
    by decide +kernel⟩

/-- hypotheses of `C102_partial`: a dag made by hand, then the call of the counterexample -/
example : let os0 : List DOp := [.emplace 1 "//x".toList 7, .addEdge 50 1 1 .requires]
    (∃ s, insertSet (Ex.libEnv 10) 4 (os0.foldl DOp.onDag Dag.empty) Ex.libSet "/a".toList [0, 1, 2] id =
      .ok s) ∧
    GOk Graphs.init (.newGraph 9 :: os0.map (DOp.onHeap 9)) ∧
    (∀ j s t k, DOp.addEdge (100 + j) s t k ∉ os0) ∧
    BuildEnv (Ex.libEnv 10) (os0.foldl DOp.onDag Dag.empty) Ex.libSet [0, 1, 2] [0, 1, 2] id := by
  intro os0
  refine ⟨⟨_, rfl⟩, ?_, ?_, ?_⟩
  · simp [os0, GOk, GOp.Pre, GOp.apply, Graphs.init, Graphs.Alive, fset, DOp.onHeap]
  · intro j s t k h
    simp [os0] at h
    omega
  · refine Ex.libBuildEnv 10 _ ⟨by simp [os0, DOp.onDag, Dag.emplace, Dag.addEdge, Dag.empty], ?_⟩ ?_
    · simp [os0, DOp.onDag, Dag.emplace, Dag.addEdge, Dag.empty]
    · intro i
      simp [os0, DOp.onDag, Dag.emplace, Dag.addEdge, Dag.empty]
      omega

end Joque
