import Verif.Proof.Rename
import Verif.Props.Order
import Verif.Props.Dag
import Verif.Props.Exec6
import Verif.Props.Inserted

/-! # Is the order of a sequential execution reproducible? (C104) -/

namespace Joque

/-- what `insert_set` has built in an empty dag -/
structure BuiltFresh (st : Store) (ts : TaskSet) (filter : Str) (g : Dag) : Prop where
  wf : g.WF
  tasks : (g.nodes.map g.task).Nodup
  selected : ∀ t, t ∈ g.nodes.map g.task ↔ Selected st ts filter t
  after : ∀ x ∈ g.nodes, ∀ y ∈ g.nodes, AfterEdge g x y ↔
    g.task y ∈ (st (g.task x)).dependsOn ∨ g.task y ∈ (st (g.task x)).runAfter

theorem builtFresh {E : BEnv} {ts : TaskSet} {univ visit : List TaskId} {order : List TaskId → List TaskId}
    (h : BuildEnv E Dag.empty ts univ visit order) {fuel : Nat} (hfuel : univ.length < fuel) {filter : Str}
    {s : BSt} (hs : insertSet E fuel Dag.empty ts filter visit order = .ok s) :
    BuiltFresh E.store ts filter s.dag := by
  obtain ⟨h1, h2, -⟩ := C22_selected E Dag.empty ts univ visit order h fuel hfuel filter s hs
  obtain ⟨h3, h4, h5⟩ := C23_edges E Dag.empty ts univ visit order h fuel hfuel filter s hs
  have hN : newNodes Dag.empty s = s.dag.nodes := by
    unfold newNodes
    exact List.filter_eq_self.2 fun n _ => by simp [Dag.empty]
  rw [hN] at h1 h2 h3 h4
  refine ⟨h5, h1, h2, fun x hx y hy => ?_⟩
  have h6 := h3 x hx y hy .after
  unfold AfterEdge HasEdge
  rw [← List.count_pos_iff, h6]
  simp only [declared, Nat.add_pos_iff_pos_or_pos, List.count_pos_iff]

variable {st : Store} {ts : TaskSet} {filter : Str}

theorem after_nodes {g : Dag} (hwf : g.WF) {x y : Node} (h : AfterEdge g x y) : x ∈ g.nodes ∧ y ∈ g.nodes := by
  obtain ⟨e, he, rfl⟩ := exists_of_hasEdge h
  have h1 := mem_filterEdges_out.1 he
  have h2 := hwf.closed e h1.1
  have h3 : e.src = x := by
    have := h1.2
    simp_all
  exact ⟨h3 ▸ h2.1, h2.2⟩

theorem BuiltFresh.must {g : Dag} (h : BuiltFresh st ts filter g) {x y : Node}
    (hxy : Relation.TransGen (AfterEdge g) x y) :
    Relation.TransGen (MustFollow st ts filter) (g.task x) (g.task y) := by
  have key : ∀ x y, AfterEdge g x y → MustFollow st ts filter (g.task x) (g.task y) := by
    intro x y hxy
    obtain ⟨hx, hy⟩ := after_nodes h.wf hxy
    exact ⟨(h.selected _).1 (List.mem_map_of_mem hx), (h.selected _).1 (List.mem_map_of_mem hy),
      (h.after x hx y hy).1 hxy⟩
  induction hxy with
  | single he => exact .single (key _ _ he)
  | tail _ he ih => exact .tail ih (key _ _ he)

theorem BuiltFresh.path {g : Dag} (h : BuiltFresh st ts filter g) {a b : TaskId}
    (hab : Relation.TransGen (MustFollow st ts filter) a b) :
    ∀ x ∈ g.nodes, ∀ y ∈ g.nodes, g.task x = a → g.task y = b → Relation.TransGen (AfterEdge g) x y := by
  induction hab with
  | single he =>
    rintro x hx y hy rfl rfl
    exact .single ((h.after x hx y hy).2 he.2.2)
  | @tail b c _ he ih =>
    rintro x hx y hy rfl rfl
    obtain ⟨z, hz, rfl⟩ := List.mem_map.1 ((h.selected _).2 he.1)
    exact .tail (ih x hx z hz rfl rfl) ((h.after z hz y hy).2 he.2.2)

/-- the records of a sequential execution, by task -/
theorem seq_records {g : Dag} (hb : BuiltFresh st ts filter g) {ms : List Move}
    (hfin : (exec (execCfg st g 0) ms).phase = .finished) :
    ¬ Cyclic g ∧ (exec (execCfg st g 0) ms).erec.runs.map RunRecord.t =
      (startOrder g (toProcessOf g)).map g.task := by
  have hI : Inv (execCfg st g 0) (exec (execCfg st g 0) ms) := inv_exec hb.wf ms
  have hac : ¬ Cyclic g := hI.acyc (by rw [hfin]; rfl)
  have hs := toProcessOf_spec g
  have hr : ByAddress g (toProcessOf g) :=
    ⟨(List.perm_ext_iff_of_nodup (hs.1.imp Nat.ne_of_lt) hb.wf.nodup).2 fun a => hs.2 a, hs.1⟩
  have h1 := (C93_sequential (execCfg st g 0) hb.wf (by simp [execCfg, Cfg.ofJobs]) hac (toProcessOf g) hr ms).2.2 hfin
  refine ⟨hac, ?_⟩
  rw [show startOrder g (toProcessOf g) = startOrder (execCfg st g 0).dag (toProcessOf g) from rfl, ← h1,
    List.map_map]
  apply List.map_congr_left
  intro r hr
  exact (hI.recs r hr).t

theorem startOrder_facts {g : Dag} (hwf : g.WF) (hac : ¬ Cyclic g) :
    (startOrder g (toProcessOf g)).Perm g.nodes ∧ Topo g (startOrder g (toProcessOf g)) := by
  have hs := toProcessOf_spec g
  have hr : ByAddress g (toProcessOf g) :=
    ⟨(List.perm_ext_iff_of_nodup (hs.1.imp Nat.ne_of_lt) hwf.nodup).2 fun a => hs.2 a, hs.1⟩
  exact C93_order g hwf hac _ hr

theorem sublist_pair {L : List Node} {x y : Node} (hnd : L.Nodup) :
    [y, x].Sublist L ↔ ∃ a b, L = a ++ x :: b ∧ y ∈ a := by
  constructor
  · intro h
    induction L with
    | nil => cases h
    | cons z L ih =>
      cases h with
      | cons _ h =>
        obtain ⟨a, b, rfl, hy⟩ := ih (List.nodup_cons.1 hnd).2 h
        exact ⟨z :: a, b, rfl, List.mem_cons_of_mem _ hy⟩
      | cons_cons _ h =>
        have hx : x ∈ L := by simpa using h
        obtain ⟨a, b, rfl⟩ := List.append_of_mem hx
        exact ⟨y :: a, b, rfl, by simp⟩
  · rintro ⟨a, b, rfl, hy⟩
    have h1 : [y].Sublist a := by simpa using hy
    have h2 : [x].Sublist (x :: b) := by simp
    exact h1.append h2

/-- what comes before an element of a list without repetitions -/
theorem split_unique {a b c d : List Node} {x : Node} (hnd : (a ++ x :: b).Nodup)
    (e : a ++ x :: b = c ++ x :: d) : a = c := by
  have ha : x ∉ a := fun h => by
    rw [List.nodup_append] at hnd
    exact hnd.2.2 x h x (by simp) rfl
  have hc : x ∉ c := fun h => by
    rw [e, List.nodup_append] at hnd
    exact hnd.2.2 x h x (by simp) rfl
  have e1 := congrArg (List.idxOf x) e
  rw [List.idxOf_append_of_notMem ha, List.idxOf_append_of_notMem hc, List.idxOf_cons_self,
    List.idxOf_cons_self] at e1
  exact (List.append_inj e (by omega)).1

/-- what is ordered is recorded in this order -/
theorem topo_path {g : Dag} {L : List Node} (ht : Topo g L) (hnd : L.Nodup) {x y : Node}
    (hxy : Relation.TransGen (AfterEdge g) x y) (hx : x ∈ L) : [y, x].Sublist L := by
  rw [sublist_pair hnd]
  induction hxy using Relation.TransGen.head_induction_on with
  | single he =>
    obtain ⟨a, b, rfl⟩ := List.append_of_mem hx
    exact ⟨a, b, rfl, ht a _ b rfl _ he⟩
  | head he _ ih =>
    rename_i x z hzy
    obtain ⟨a, b, rfl⟩ := List.append_of_mem hx
    have hz := ht a _ b rfl _ he
    obtain ⟨c, d, hcd, hy⟩ := ih (List.mem_append_left _ hz)
    refine ⟨a, b, rfl, ?_⟩
    obtain ⟨a1, a2, rfl⟩ := List.append_of_mem hz
    have hz1 : z ∉ a1 := fun h => by
      rw [List.append_assoc, List.nodup_append] at hnd
      exact hnd.2.2 z h z (by simp) rfl
    have hz2 : z ∉ c := fun h => by
      rw [hcd, List.nodup_append] at hnd
      exact hnd.2.2 z h z (by simp) rfl
    have hc : c = a1 := by
      have e : a1 ++ z :: (a2 ++ x :: b) = c ++ z :: d := by rw [← hcd]; simp
      have e1 := congrArg (List.idxOf z) e
      rw [List.idxOf_append_of_notMem hz1, List.idxOf_append_of_notMem hz2, List.idxOf_cons_self,
        List.idxOf_cons_self] at e1
      exact (List.append_inj e (by omega)).1.symm
    rw [← hc]
    exact List.mem_append_left _ hy

/-- **C104**, what is reproducible: declared orderings.  Hence any two possible orders are
arrangements of the same tasks that agree on what is ordered. -/
theorem C104_ordered (st : Store) (ts : TaskSet) (filter : Str) (L : List TaskId)
    (hL : SeqOrder st ts filter L) :
    L.Nodup ∧ (∀ t, t ∈ L ↔ Selected st ts filter t) ∧
    ∀ a b, Relation.TransGen (MustFollow st ts filter) b a → [a, b].Sublist L := by
  obtain ⟨E, univ, visit, order, fuel, s, k, rfl, hb, hf, hs, hfin, rfl⟩ := hL
  have hB := builtFresh hb hf hs
  obtain ⟨hac, hrec⟩ := seq_records hB hfin
  obtain ⟨hp, ht⟩ := startOrder_facts hB.wf hac
  have hnd : (startOrder s.dag (toProcessOf s.dag)).Nodup := hp.nodup_iff.2 hB.wf.nodup
  rw [hrec]
  refine ⟨((hp.map _).nodup_iff).2 hB.tasks, fun t => ?_, fun a b hab => ?_⟩
  · rw [(hp.map _).mem_iff]; exact hB.selected t
  · have hsel : ∀ t u, Relation.TransGen (MustFollow E.store ts filter) t u →
        Selected E.store ts filter t ∧ Selected E.store ts filter u := by
      intro t u h
      induction h with
      | single h => exact ⟨h.1, h.2.1⟩
      | tail _ h ih => exact ⟨ih.1, h.2.1⟩
    obtain ⟨h1, h2⟩ := hsel b a hab
    obtain ⟨x, hx, rfl⟩ := List.mem_map.1 ((hB.selected b).2 h1)
    obtain ⟨y, hy, rfl⟩ := List.mem_map.1 ((hB.selected a).2 h2)
    exact (topo_path ht hnd (hB.path hab x hx y hy rfl rfl) (hp.mem_iff.2 hx)).map s.dag.task

/-- the node with the lowest address is recorded before everything it does not have to wait for -/
theorem lowest_first {g : Dag} (hwf : g.WF) (hac : ¬ Cyclic g) {x y : Node} (hx : x ∈ g.nodes)
    (hlow : ∀ n ∈ g.nodes, x ≤ n) (hy : y ∈ g.nodes) (hne : x ≠ y)
    (hxy : ¬ Relation.TransGen (AfterEdge g) x y) :
    [x, y].Sublist (startOrder g (toProcessOf g)) := by
  obtain ⟨hp, -⟩ := startOrder_facts hwf hac
  have hs := toProcessOf_spec g
  have hroots : ∃ rest, toProcessOf g = x :: rest := by
    cases h : toProcessOf g with
    | nil => have := (hs.2 x).2 hx; rw [h] at this; cases this
    | cons z rest =>
      refine ⟨rest, ?_⟩
      have h1 := (hs.2 x).2 hx
      rw [h] at h1
      rcases List.mem_cons.1 h1 with rfl | h1
      · rfl
      · have h2 := hs.1
        rw [h] at h2
        have h3 := (List.pairwise_cons.1 h2).1 x h1
        exact absurd h3 (Nat.not_lt.2 (hlow z ((hs.2 z).1 (by rw [h]; simp))))
  obtain ⟨rest, hrest⟩ := hroots
  have hyL := hp.mem_iff.2 hy
  rw [hrest] at hyL ⊢
  unfold startOrder at hyL ⊢
  rw [List.foldl_cons] at hyL ⊢
  obtain ⟨h1, h2⟩ := depthFirst_spec hwf hac (g.nodes.length + 1) x [] hx
    (Nat.lt_succ_of_le (below_le x)) ⟨by simp, by intro a x b e; simp at e, by simp⟩
  obtain ⟨new, e, hnew⟩ := depthFirst_ext (g := g) (g.nodes.length + 1) x []
  obtain ⟨new2, e2, -⟩ := depthFirst_fold_ext (g := g) (g.nodes.length + 1) rest
    (depthFirst g (g.nodes.length + 1) x [])
  rw [e2] at hyL ⊢
  rw [e, List.nil_append] at h2 hyL ⊢
  have hyn : y ∉ new := by
    intro h
    rcases Relation.reflTransGen_iff_eq_or_transGen.1 (hnew y h) with h | h
    · exact hne h.symm
    · exact hxy h
  have hy2 := (List.mem_append.1 hyL).resolve_left hyn
  have s1 : [x].Sublist new := by simpa using h2
  have s2 : [y].Sublist new2 := by simpa using hy2
  exact s1.append s2

theorem exists_lowest {l : List Node} {x : Node} (hx : x ∈ l) : ∃ m ∈ l, ∀ n ∈ l, m ≤ n := by
  induction l generalizing x with
  | nil => cases hx
  | cons a l ih =>
    cases l with
    | nil => exact ⟨a, by simp, by simp⟩
    | cons b l =>
      obtain ⟨m, hm, h⟩ := ih (x := b) (by simp)
      by_cases ham : a ≤ m
      · refine ⟨a, by simp, fun n hn => ?_⟩
        rcases List.mem_cons.1 hn with rfl | hn
        · exact Nat.le_refl _
        · exact Nat.le_trans ham (h n hn)
      · refine ⟨m, List.mem_cons_of_mem _ hm, fun n hn => ?_⟩
        rcases List.mem_cons.1 hn with rfl | hn
        · exact Nat.le_of_lt (Nat.lt_of_not_le ham)
        · exact h n hn

/-- the same program run with the nodes placed elsewhere -/
theorem placed {E : BEnv} {univ visit : List TaskId} {order : List TaskId → List TaskId}
    (h : BuildEnv E Dag.empty ts univ visit order) {fuel : Nat} (hfuel : univ.length < fuel)
    {s : BSt} (hs : insertSet E fuel Dag.empty ts filter visit order = .ok s)
    (hG : Healthy (execCfg E.store s.dag 0)) (σ : Equiv.Perm Node) :
    BuildEnv (E.rename σ) Dag.empty ts univ visit order ∧
    insertSet (E.rename σ) fuel Dag.empty ts filter visit order = .ok (s.rename σ) ∧
    BuiltFresh E.store ts filter (s.dag.rename σ) ∧ Healthy (execCfg E.store (s.dag.rename σ) 0) := by
  have h' : BuildEnv (E.rename σ) Dag.empty ts univ visit order :=
    { set := h.set, dag := h.dag, closed := h.closed, univ := h.univ, visit := h.visit, order := h.order
      allocInj := fun i j e => h.allocInj i j (σ.injective e)
      allocFresh := fun i => by simp [Dag.empty] }
  have hs' : insertSet (E.rename σ) fuel Dag.empty ts filter visit order = .ok (s.rename σ) := by
    have := insertSet_rename (σ := σ) E fuel Dag.empty ts filter visit order
    rw [hs] at this
    exact this
  have hB' : BuiltFresh E.store ts filter (s.dag.rename σ) := builtFresh h' hfuel hs'
  have hn : ∀ n ∈ (s.dag.rename σ).nodes, σ.symm n ∈ s.dag.nodes := by
    intro n hn
    obtain ⟨m, hm, rfl⟩ := List.mem_map.1 hn
    simpa using hm
  exact ⟨h', hs', hB',
    { wf := hB'.wf
      acyclic := by
        rintro ⟨n, hn⟩
        exact hG.acyclic ⟨σ.symm n, trans_rename hn⟩
      jobs := fun n h => hG.jobs (σ.symm n) (hn n h)
      answers := fun n h => hG.answers (σ.symm n) (hn n h)
      codes := fun n h => hG.codes (σ.symm n) (hn n h) }⟩

/-- **C104**, what is not reproducible: everything else.  If `b` does not have to come before `a`, the
program may run `a` first. -/
theorem C104_free (E : BEnv) (ts : TaskSet) (univ visit : List TaskId) (order : List TaskId → List TaskId)
    (h : BuildEnv E Dag.empty ts univ visit order) (fuel : Nat) (hfuel : univ.length < fuel) (filter : Str)
    (s : BSt) (hs : insertSet E fuel Dag.empty ts filter visit order = .ok s)
    (hG : Healthy (execCfg E.store s.dag 0)) (a b : TaskId) (ha : Selected E.store ts filter a)
    (hb : Selected E.store ts filter b) (hne : a ≠ b)
    (hab : ¬ Relation.TransGen (MustFollow E.store ts filter) a b) :
    ∃ L, SeqOrder E.store ts filter L ∧ [a, b].Sublist L := by
  have hB := builtFresh h hfuel hs
  obtain ⟨x, hx, rfl⟩ := List.mem_map.1 ((hB.selected a).2 ha)
  obtain ⟨y, hy, rfl⟩ := List.mem_map.1 ((hB.selected b).2 hb)
  obtain ⟨m, hm, hlow⟩ := exists_lowest hx
  let σ : Equiv.Perm Node := Equiv.swap x m
  have hmem : ∀ z, z ∈ s.dag.nodes → σ z ∈ s.dag.nodes := by
    intro z hz
    show Equiv.swap x m z ∈ _
    rw [Equiv.swap_apply_def]
    split
    · exact hm
    · split
      · exact hx
      · exact hz
  obtain ⟨h', hs', hB', hG'⟩ := placed h hfuel hs hG σ
  obtain ⟨k, hfin, -⟩ := C11_ticks_sequential (execCfg E.store (s.dag.rename σ) 0) hG' rfl
  refine ⟨_, ⟨E.rename σ, univ, visit, order, fuel, s.rename σ, k, rfl, h', hfuel, hs', hfin, rfl⟩, ?_⟩
  rw [show (s.rename σ).dag = s.dag.rename σ from rfl, (seq_records hB' hfin).2]
  have hσx : σ x = m := Equiv.swap_apply_left x m
  have hlast := lowest_first hB'.wf hG'.acyclic (x := σ x) (y := σ y) (List.mem_map_of_mem hx)
    (fun n hn => by
      rw [hσx]
      obtain ⟨w, hw, rfl⟩ := List.mem_map.1 hn
      exact hlow _ (hmem w hw)) (List.mem_map_of_mem hy)
    (fun e => hne (congrArg s.dag.task (σ.injective e)))
    (fun hp => hab (hB.must (by simpa using trans_rename hp)))
  have := hlast.map (s.dag.rename σ).task
  simpa only [List.map_cons, List.map_nil, Dag.rename, Equiv.symm_apply_apply] using this

/-- **C104**, all of the freedom: every arrangement of the selected tasks that respects the declared
orderings is a possible order. -/
theorem C104_every (E : BEnv) (ts : TaskSet) (univ visit : List TaskId) (order : List TaskId → List TaskId)
    (h : BuildEnv E Dag.empty ts univ visit order) (fuel : Nat) (hfuel : univ.length < fuel) (filter : Str)
    (s : BSt) (hs : insertSet E fuel Dag.empty ts filter visit order = .ok s)
    (hG : Healthy (execCfg E.store s.dag 0)) (L : List TaskId) (hnd : L.Nodup)
    (hsel : ∀ t, t ∈ L ↔ Selected E.store ts filter t)
    (hord : ∀ a b, MustFollow E.store ts filter b a → [a, b].Sublist L) :
    SeqOrder E.store ts filter L := by
  have hB := builtFresh h hfuel hs
  -- the nodes in the order of the tasks
  have hN : ∃ N : List Node, N.map s.dag.task = L ∧ ∀ n ∈ N, n ∈ s.dag.nodes := by
    have : ∀ M : List TaskId, (∀ t ∈ M, t ∈ L) → ∃ N : List Node, N.map s.dag.task = M ∧ ∀ n ∈ N, n ∈ s.dag.nodes := by
      intro M
      induction M with
      | nil => intro _; exact ⟨[], rfl, by simp⟩
      | cons t M ih =>
        intro hM
        obtain ⟨N, hN, hn⟩ := ih fun u hu => hM u (List.mem_cons_of_mem _ hu)
        obtain ⟨n, h1, h2⟩ := List.mem_map.1 ((hB.selected t).2 ((hsel t).1 (hM t (by simp))))
        refine ⟨n :: N, by rw [List.map_cons, h2, hN], ?_⟩
        intro m hm
        rcases List.mem_cons.1 hm with rfl | hm
        · exact h1
        · exact hn m hm
    exact this L fun _ h => h
  obtain ⟨N, hNL, hNn⟩ := hN
  have hNnd : N.Nodup := List.Nodup.of_map s.dag.task (hNL ▸ hnd)
  have htinj : ∀ x ∈ s.dag.nodes, ∀ y ∈ s.dag.nodes, s.dag.task x = s.dag.task y → x = y :=
    fun x hx y hy e => List.inj_on_of_nodup_map hB.tasks hx hy e
  have hNmem : ∀ n, n ∈ N ↔ n ∈ s.dag.nodes := by
    intro n
    refine ⟨hNn n, fun hn => ?_⟩
    have h1 : s.dag.task n ∈ L := (hsel _).2 ((hB.selected _).1 (List.mem_map_of_mem hn))
    rw [← hNL] at h1
    obtain ⟨m, hm, e⟩ := List.mem_map.1 h1
    exact htinj m (hNn m hm) n hn e ▸ hm
  have hsp := toProcessOf_spec s.dag
  have hSnd : (toProcessOf s.dag).Nodup := hsp.1.imp Nat.ne_of_lt
  have hNS : N.Perm (toProcessOf s.dag) :=
    (List.perm_ext_iff_of_nodup hNnd hSnd).2 fun n => (hNmem n).trans (hsp.2 n).symm
  obtain ⟨σ, hσ⟩ := exists_perm hNnd hSnd hNS.length_eq
  obtain ⟨h', hs', hB', hG'⟩ := placed h hfuel hs hG σ
  have hsp' := toProcessOf_spec (s.dag.rename σ)
  have hP : toProcessOf (s.dag.rename σ) = N.map σ := by
    rw [hσ]
    refine List.Perm.eq_of_pairwise (le := (· < ·)) (fun a b _ _ h1 h2 => absurd h1 (Nat.lt_asymm h2)) hsp'.1
      hsp.1 ((List.perm_ext_iff_of_nodup (hsp'.1.imp Nat.ne_of_lt) hSnd).2 fun n => ?_)
    rw [hsp'.2, ← hσ]
    simp only [Dag.rename, List.mem_map, hNmem]
  have hT : Topo (s.dag.rename σ) (N.map σ) := by
    intro a x b e y hxy
    have hx' : x ∈ N.map σ := by rw [e]; simp
    obtain ⟨x, hx, rfl⟩ := List.mem_map.1 hx'
    obtain ⟨y, hy, rfl⟩ := List.mem_map.1 (after_nodes hB'.wf hxy).2
    have h1 := (hB.after x (hNn x hx) y hy).1 (after_rename.1 hxy)
    have h2 := hord (s.dag.task y) (s.dag.task x)
      ⟨(hB.selected _).1 (List.mem_map_of_mem (hNn x hx)), (hB.selected _).1 (List.mem_map_of_mem hy), h1⟩
    obtain ⟨c, d, e2, hc⟩ := (sublist_pair hnd).1 h2
    -- the part of `L` before the task of `x`
    obtain ⟨a', b', e3⟩ : ∃ a' b', N = a' ++ x :: b' := List.append_of_mem hx
    have e4 : a'.map s.dag.task = c := by
      have e5 : a'.map s.dag.task ++ s.dag.task x :: b'.map s.dag.task = c ++ s.dag.task x :: d := by
        rw [← e2, ← hNL, e3]; simp
      exact split_unique (by rw [e5, ← e2]; exact hnd) e5
    have e6 : a'.map σ = a := by
      have e7 : a'.map σ ++ σ x :: b'.map σ = a ++ σ x :: b := by
        rw [← e, e3]; simp
      exact split_unique (by rw [e7, ← e]; exact hNnd.map σ.injective) e7
    rw [← e4] at hc
    obtain ⟨z, hz, e8⟩ := List.mem_map.1 hc
    rw [← e6, ← htinj z (hNn z (by rw [e3]; simp [hz])) y hy e8]
    exact List.mem_map_of_mem hz
  obtain ⟨k, hfin, -⟩ := C11_ticks_sequential (execCfg E.store (s.dag.rename σ) 0) hG' rfl
  refine ⟨E.rename σ, univ, visit, order, fuel, s.rename σ, k, rfl, h', hfuel, hs', hfin, ?_⟩
  rw [show (s.rename σ).dag = s.dag.rename σ from rfl, (seq_records hB' hfin).2, hP,
    startOrder_topo (hNnd.map σ.injective) hT, List.map_map, ← hNL]
  apply List.map_congr_left
  intro n _
  simp [Dag.rename]

/-- **C104**: the possible orders are exactly the arrangements of the selected tasks that respect the
declared orderings. -/
theorem C104_orders (E : BEnv) (ts : TaskSet) (univ visit : List TaskId) (order : List TaskId → List TaskId)
    (h : BuildEnv E Dag.empty ts univ visit order) (fuel : Nat) (hfuel : univ.length < fuel) (filter : Str)
    (s : BSt) (hs : insertSet E fuel Dag.empty ts filter visit order = .ok s)
    (hG : Healthy (execCfg E.store s.dag 0)) (L : List TaskId) :
    SeqOrder E.store ts filter L ↔
      L.Nodup ∧ (∀ t, t ∈ L ↔ Selected E.store ts filter t) ∧
      ∀ a b, MustFollow E.store ts filter b a → [a, b].Sublist L := by
  constructor
  · intro hL
    obtain ⟨h1, h2, h3⟩ := C104_ordered E.store ts filter L hL
    exact ⟨h1, h2, fun a b hab => h3 a b (.single hab)⟩
  · rintro ⟨h1, h2, h3⟩
    exact C104_every E ts univ visit order h fuel hfuel filter s hs hG L h1 h2 h3

/-- one of two orders -/
theorem sublist_antisymm {L : List Node} (hnd : L.Nodup) {a b : Node} (hab : [a, b].Sublist L)
    (hba : [b, a].Sublist L) : False := by
  rw [sublist_pair hnd] at hab hba
  obtain ⟨p, q, e, h1⟩ := hab
  obtain ⟨p', q', e', h2⟩ := hba
  have k1 : L.idxOf a < L.idxOf b := by
    have : b ∉ p := fun hb => by
      rw [e, List.nodup_append] at hnd
      exact hnd.2.2 b hb b (by simp) rfl
    rw [e, List.idxOf_append_of_mem h1, List.idxOf_append_of_notMem this, List.idxOf_cons_self]
    have := List.idxOf_lt_length_of_mem h1
    omega
  have k2 : L.idxOf b < L.idxOf a := by
    have : a ∉ p' := fun hb => by
      rw [e', List.nodup_append] at hnd
      exact hnd.2.2 a hb a (by simp) rfl
    rw [e', List.idxOf_append_of_mem h2, List.idxOf_append_of_notMem this, List.idxOf_cons_self]
    have := List.idxOf_lt_length_of_mem h2
    omega
  omega

/-- **C104**, exactly: two tasks come in the same order in every program run iff one has to come before
the other. -/
theorem C104_exact (E : BEnv) (ts : TaskSet) (univ visit : List TaskId) (order : List TaskId → List TaskId)
    (h : BuildEnv E Dag.empty ts univ visit order) (fuel : Nat) (hfuel : univ.length < fuel) (filter : Str)
    (s : BSt) (hs : insertSet E fuel Dag.empty ts filter visit order = .ok s)
    (hG : Healthy (execCfg E.store s.dag 0)) (a b : TaskId) (ha : Selected E.store ts filter a)
    (hb : Selected E.store ts filter b) (hne : a ≠ b) :
    (∀ L, SeqOrder E.store ts filter L → [a, b].Sublist L) ↔
      Relation.TransGen (MustFollow E.store ts filter) b a := by
  constructor
  · intro hall
    by_contra hno
    obtain ⟨L, hL, hba⟩ := C104_free E ts univ visit order h fuel hfuel filter s hs hG b a hb ha hne.symm hno
    have hnd := (C104_ordered E.store ts filter L hL).1
    exact sublist_antisymm hnd (hall L hL) hba
  · intro hp L hL
    exact (C104_ordered E.store ts filter L hL).2.2 a b hp

/-- two arrangements that agree on every pair are equal -/
theorem eq_of_pairs {L M : List TaskId} (hL : L.Nodup) (hM : M.Nodup) (hm : ∀ t, t ∈ L ↔ t ∈ M)
    (hp : ∀ a b, [a, b].Sublist L → [a, b].Sublist M) : L = M := by
  have hpw : L.Pairwise (fun a b => [a, b].Sublist M) := by
    rw [List.pairwise_iff_forall_sublist]
    intro a b hab
    exact hp a b hab
  have hpm : M.Pairwise (fun a b => [a, b].Sublist M) := by
    rw [List.pairwise_iff_forall_sublist]
    intro a b hab
    exact hab
  refine List.Perm.eq_of_pairwise (le := fun a b => [a, b].Sublist M) ?_ hpw hpm
    ((List.perm_ext_iff_of_nodup hL hM).2 hm)
  intro a b _ _ h1 h2
  exact (sublist_antisymm hM h1 h2).elim

/-- **C104** (partial): if of any two selected tasks one has to come before the other, there is one order. -/
theorem C104_partial (st : Store) (ts : TaskSet) (filter : Str)
    (htot : ∀ a b, Selected st ts filter a → Selected st ts filter b → a ≠ b →
      Relation.TransGen (MustFollow st ts filter) a b ∨ Relation.TransGen (MustFollow st ts filter) b a)
    (L M : List TaskId) (hL : SeqOrder st ts filter L) (hM : SeqOrder st ts filter M) : L = M := by
  obtain ⟨l1, l2, l3⟩ := C104_ordered st ts filter L hL
  obtain ⟨m1, m2, m3⟩ := C104_ordered st ts filter M hM
  refine eq_of_pairs l1 m1 (fun t => (l2 t).trans (m2 t).symm) fun a b hab => ?_
  have hm := hab.subset
  have hne : a ≠ b := by
    have := hab.nodup l1
    simpa using this
  rcases htot a b ((l2 a).1 (hm (by simp))) ((l2 b).1 (hm (by simp))) hne with h | h
  · exact (sublist_antisymm l1 hab (l3 b a h)).elim
  · exact m3 a b h

/-! ## A library and its two users -/

namespace Ex

/-- the nodes of `a` and `c` in the places of each other -/
def libEnv' : BEnv := (libEnv 10).rename (Equiv.swap 11 12)

theorem libBuildEnv' : BuildEnv libEnv' Dag.empty libSet [0, 1, 2] [0, 1, 2] id :=
  let h := libBuildEnv 10 Dag.empty ⟨by simp [Dag.empty], by simp [Dag.empty]⟩ (by simp [Dag.empty])
  { set := h.set, dag := h.dag, closed := h.closed, univ := h.univ, visit := h.visit, order := h.order
    allocInj := fun i j e => h.allocInj i j ((Equiv.swap 11 12).injective e)
    allocFresh := fun i => by simp [Dag.empty] }

def libAll (E : BEnv) : BOut := insertSet E 4 Dag.empty libSet [] [0, 1, 2] id

end Ex

/-- **C104** is false: `a` and `c` depend on `lib`; depending on where the nodes are placed, the order is
`lib`, `a`, `c` or `lib`, `c`, `a`. -/
theorem C104_counterexample : ∃ st ts filter L M, SeqOrder st ts filter L ∧ SeqOrder st ts filter M ∧ L ≠ M := by
  refine ⟨Ex.libStore, Ex.libSet, [], [0, 1, 2], [0, 2, 1],
    ⟨Ex.libEnv 10, [0, 1, 2], [0, 1, 2], id, 4,
      match Ex.libAll (Ex.libEnv 10) with | .ok s => s | _ => ⟨Dag.empty, [], []⟩, 21, rfl,
      Ex.libBuildEnv 10 Dag.empty ⟨by simp [Dag.empty], by simp [Dag.empty]⟩ (by simp [Dag.empty]),
      by decide, rfl, by decide +kernel, by decide +kernel⟩,
    ⟨Ex.libEnv', [0, 1, 2], [0, 1, 2], id, 4,
      match Ex.libAll Ex.libEnv' with | .ok s => s | _ => ⟨Dag.empty, [], []⟩, 21, rfl,
      Ex.libBuildEnv', by decide, rfl, by decide +kernel, by decide +kernel⟩, by decide⟩

/-- the filter `/a` selects `a` and what it depends on -/
theorem Ex.lib_selected {t : TaskId} (h : Selected Ex.libStore Ex.libSet "/a".toList t) : t = 1 ∨ t = 0 := by
  obtain ⟨p, s, hat, hf, hr⟩ := h
  have h1 := Ex.libSet_at hat
  simp only [List.mem_cons, List.not_mem_nil, or_false, Prod.mk.injEq] at h1
  have hs : s = 1 := by
    rcases h1 with ⟨rfl, rfl⟩ | ⟨rfl, rfl⟩ | ⟨rfl, rfl⟩
    · rfl
    · exact absurd hf (by decide +kernel)
    · exact absurd hf (by decide +kernel)
  subst hs
  induction hr with
  | refl => exact .inl rfl
  | @tail b c _ hd ih =>
    rcases ih with rfl | rfl
    · right
      simpa [DependsOn, Ex.libStore, Ex.plain] using hd
    · simp [DependsOn, Ex.libStore, Ex.plain] at hd

/-- the hypotheses of `C104_partial` are met by this selection: `a` has to come after `lib` -/
example : ∀ a b, Selected Ex.libStore Ex.libSet "/a".toList a → Selected Ex.libStore Ex.libSet "/a".toList b →
    a ≠ b → Relation.TransGen (MustFollow Ex.libStore Ex.libSet "/a".toList) a b ∨
      Relation.TransGen (MustFollow Ex.libStore Ex.libSet "/a".toList) b a := by
  intro a b ha hb hne
  have hd : (0 : TaskId) ∈ (Ex.libStore 1).dependsOn := by simp [Ex.libStore]
  rcases Ex.lib_selected ha with rfl | rfl <;> rcases Ex.lib_selected hb with rfl | rfl
  · exact absurd rfl hne
  · exact .inl (.single ⟨ha, hb, .inl hd⟩)
  · exact .inr (.single ⟨hb, ha, .inl hd⟩)
  · exact absurd rfl hne

/-- the hypotheses of `C104_exact` are met by the complete set -/
example : ∃ s, insertSet (Ex.libEnv 10) 4 Dag.empty Ex.libSet [] [0, 1, 2] id = .ok s ∧
    Healthy (execCfg (Ex.libEnv 10).store s.dag 0) := by
  refine ⟨match Ex.libAll (Ex.libEnv 10) with | .ok s => s | _ => ⟨Dag.empty, [], []⟩, rfl, ?_⟩
  have hb := builtFresh (filter := []) (fuel := 4)
    (s := match Ex.libAll (Ex.libEnv 10) with | .ok s => s | _ => ⟨Dag.empty, [], []⟩)
    (Ex.libBuildEnv 10 Dag.empty ⟨by simp [Dag.empty], by simp [Dag.empty]⟩ (by simp [Dag.empty])) (by decide) rfl
  have hj : ∀ t, (Ex.libStore t).job = Ex.plain.job := fun t => by
    unfold Ex.libStore
    split <;> rfl
  refine ⟨hb.wf, ?_, by decide +kernel, ?_, ?_⟩
  · exact (seq_records hb (ms := List.replicate 21 .ctl) (by decide +kernel)).1
  · intro n _
    refine ⟨⟨true, "always invalidated".toList⟩, ?_⟩
    show (match (Ex.libStore _).job with
      | some j => j.isInvalidated
      | none => .throws []) = _
    rw [hj]; rfl
  · intro n _ rr hrr
    change (match (Ex.libStore _).job with
      | some j => j.run
      | none => .throwsOther) = _ at hrr
    rw [hj] at hrr
    cases hrr
    simp

end Joque
