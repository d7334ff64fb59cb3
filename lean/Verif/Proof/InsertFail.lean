import Verif.Model.InsertFail
import Verif.Proof.InsertSet

/-! # The allocations of `insert_set` build its dag -/

namespace Joque

theorem dagOps_append (l l' : List Alloc) : dagOps (l ++ l') = dagOps l ++ dagOps l' :=
  List.filterMap_append

/-- edges are added at the right address between nodes that are there -/
def DOk (ea : Nat → Nat) : Dag → List DOp → Prop
  | _, [] => True
  | d, o :: os =>
    (match o with
    | .emplace _ _ _ => True
    | .addEdge e s t _ => e = ea d.edges.length ∧ s ∈ d.nodes ∧ t ∈ d.nodes) ∧ DOk ea (o.onDag d) os

theorem DOk.append {ea : Nat → Nat} {os os' : List DOp} {d : Dag} :
    DOk ea d (os ++ os') ↔ DOk ea d os ∧ DOk ea (os.foldl DOp.onDag d) os' := by
  induction os generalizing d with
  | nil => simp [DOk]
  | cons o os ih =>
    simp only [List.cons_append, DOk, ih, List.foldl_cons, and_assoc]

/-- the nodes in the index are nodes of the dag -/
def IndexIn (s : BSt) : Prop := ∀ e ∈ s.index, e.2 ∈ s.dag.nodes

/-- the allocations `l` take the dag from that of `s` to that of `s'` -/
structure Takes (ea : Nat → Nat) (l : List Alloc) (s s' : BSt) : Prop where
  ops : (dagOps l).foldl DOp.onDag s.dag = s'.dag
  ok : DOk ea s.dag (dagOps l)
  idx : IndexIn s'

theorem Takes.refl {ea : Nat → Nat} {s : BSt} (h : IndexIn s) : Takes ea [] s s := ⟨rfl, trivial, h⟩

theorem Takes.trans {ea : Nat → Nat} {l l' : List Alloc} {s s' s'' : BSt} (h : Takes ea l s s')
    (h' : Takes ea l' s' s'') : Takes ea (l ++ l') s s'' := by
  refine ⟨?_, ?_, h'.idx⟩
  · rw [dagOps_append, List.foldl_append, h.ops, h'.ops]
  · rw [dagOps_append, DOk.append, h.ops]
    exact ⟨h.ok, h'.ok⟩

theorem takes_edge {ea : Nat → Nat} {s s' : BSt} (hi : IndexIn s) {t d : TaskId} {k : EKind}
    (h : s.addEdge t d k = some s') : Takes ea (edgeAlloc ea s t d k) s s' := by
  unfold BSt.addEdge at h
  unfold edgeAlloc
  split at h
  · rename_i a b ha hb
    cases h
    rw [ha, hb]
    refine ⟨rfl, ⟨⟨rfl, ?_, ?_⟩, trivial⟩, hi⟩
    · exact hi _ (mget_some_mem ha)
    · exact hi _ (mget_some_mem hb)
  · cases h

theorem takes_dep {ea : Nat → Nat} {s s' : BSt} (hi : IndexIn s) {t d : TaskId}
    (h : s.addDep t d = some s') : Takes ea (depAlloc ea s t d) s s' := by
  unfold BSt.addDep at h
  obtain ⟨s1, h1, h⟩ := Option.bind_eq_some_iff.1 h
  obtain ⟨s2, h2, h3⟩ := Option.bind_eq_some_iff.1 h
  unfold depAlloc
  have t1 := takes_edge (ea := ea) hi h1
  have t2 := takes_edge (ea := ea) t1.idx h2
  have t3 := takes_edge (ea := ea) t2.idx h3
  rw [h1]
  refine t1.trans ?_
  simp only [h2]
  exact t2.trans t3

theorem takes_deps {ea : Nat → Nat} {rec : TaskId → BSt → BOut} {alloc : TaskId → BSt → List Alloc}
    (hr : ∀ d s s', IndexIn s → rec d s = .ok s' → Takes ea (alloc d s) s s') (t : TaskId)
    (ds : List TaskId) (s s' : BSt) (hi : IndexIn s) (h : depsLoop rec t ds s = .ok s') :
    Takes ea (depsLoopAlloc ea rec alloc t ds s) s s' := by
  induction ds generalizing s with
  | nil => cases h; exact .refl hi
  | cons d ds ih =>
    unfold depsLoop at h
    unfold depsLoopAlloc
    split at h
    · rename_i s1 h1
      rw [h1]
      have t1 := hr d s s1 hi h1
      refine t1.trans ?_
      split at h
      · rename_i s2 h2
        have t2 := takes_dep (ea := ea) t1.idx h2
        refine t2.trans ?_
        simp only [h2]
        exact ih s2 t2.idx h
      · cases h
    · cases h
    · cases h

theorem takes_emplace {ea : Nat → Nat} (E : BEnv) (s : BSt) (hi : IndexIn s) (t : TaskId) (name : Str)
    (l : List (TaskId × Str)) :
    Takes ea [.op (.emplace (E.alloc s.index.length) name t), .map] s
      (({ s with tmp := l } : BSt).emplace E t name) := by
  refine ⟨rfl, ⟨trivial, trivial⟩, ?_⟩
  intro e he
  simp only [BSt.emplace, List.mem_cons] at he
  simp only [BSt.emplace, Dag.emplace, List.mem_cons]
  rcases he with rfl | he
  · exact .inl rfl
  · exact .inr (hi e he)

theorem takes_dfs (E : BEnv) (ea : Nat → Nat) (fuel : Nat) (t : TaskId) (s s' : BSt) (hi : IndexIn s)
    (h : bdfs E fuel t s = .ok s') : Takes ea (bdfsAlloc E ea fuel t s) s s' := by
  induction fuel generalizing t s s' with
  | zero => cases h
  | succ fuel ih =>
    unfold bdfs at h
    unfold bdfsAlloc
    split at h
    · cases h; rename_i h1; rw [h1]; exact .refl hi
    · rename_i h1
      rw [h1]
      split at h
      · rename_i name h2
        simp only [h2]
        have t1 := takes_emplace (ea := ea) E s hi t name s.tmp
        exact t1.trans (takes_deps (fun d s s' hi h => ih d s s' hi h) t _ _ _ t1.idx h)
      · rename_i h2
        simp only [h2]
        split at h
        · cases h
        · rename_i h3
          rw [if_neg h3]
          have t1 := takes_emplace (ea := ea) E s hi t [] ((t, []) :: s.tmp)
          have := t1.trans (takes_deps (fun d s s' hi h => ih d s s' hi h) t _ _ _ t1.idx h)
          exact ⟨this.ops, this.ok, this.idx⟩

theorem takes_tmp (E : BEnv) (ea : Nat → Nat) (fuel : Nat) (filter : Str) (ts : List TaskId) (s s' : BSt)
    (hi : IndexIn s) (h : tmpLoop E fuel filter ts s = .ok s') :
    Takes ea (tmpLoopAlloc E ea fuel filter ts s) s s' := by
  induction ts generalizing s with
  | nil => cases h; exact .refl hi
  | cons t ts ih =>
    unfold tmpLoop at h
    unfold tmpLoopAlloc
    split at h
    · rename_i h1; simp only [h1]; exact ih s hi h
    · rename_i n h1
      simp only [h1]
      split at h
      · rename_i h2
        rw [if_pos h2]
        split at h
        · rename_i s1 h3
          have t1 := takes_dfs E ea fuel t s s1 hi h3
          refine t1.trans ?_
          simp only [h3]
          exact ih s1 t1.idx h
        · cases h
        · cases h
      · rename_i h2
        rw [if_neg h2]
        exact ih s hi h

theorem takes_soft (ea : Nat → Nat) (n : Node) (k : EKind) (ds : List TaskId) (s : BSt) (hi : IndexIn s)
    (hn : n ∈ s.dag.nodes) : Takes ea (softAlloc ea s n k ds) s (addSoft s n k ds) ∧
      (addSoft s n k ds).dag.nodes = s.dag.nodes := by
  induction ds generalizing s with
  | nil => exact ⟨.refl hi, rfl⟩
  | cons d ds ih =>
    unfold addSoft softAlloc
    cases hd : mget s.index d with
    | none => exact ih s hi hn
    | some b =>
      obtain ⟨t1, t2⟩ := ih { s with dag := s.dag.addEdge n b k } hi hn
      refine ⟨⟨t1.ops, ⟨⟨rfl, hn, hi _ (mget_some_mem hd)⟩, t1.ok⟩, t1.idx⟩, t2⟩

theorem takes_index (E : BEnv) (ea : Nat → Nat) (ts : List TaskId) (s : BSt) (hi : IndexIn s) :
    Takes ea (indexLoopAlloc E ea ts s) s (indexLoop E ts s) := by
  induction ts generalizing s with
  | nil => exact .refl hi
  | cons t ts ih =>
    unfold indexLoop indexLoopAlloc
    cases ht : mget s.index t with
    | none => exact ih s hi
    | some n =>
      have hn : n ∈ s.dag.nodes := hi _ (mget_some_mem ht)
      obtain ⟨t1, e1⟩ := takes_soft ea n .after (E.store t).runAfter s hi hn
      obtain ⟨t2, _⟩ := takes_soft ea n .invalidatedBy (E.store t).invalidatedBy _ t1.idx (e1 ▸ hn)
      exact t1.trans (t2.trans (ih _ t2.idx))

theorem dagOps_map {α : Type} (l : List α) : dagOps (l.map fun _ => Alloc.map) = [] := by
  induction l with
  | nil => rfl
  | cons a l ih => exact ih

theorem takes_insert (E : BEnv) (ea : Nat → Nat) (fuel : Nat) (g : Dag) (ts : TaskSet) (filter : Str)
    (visit : List TaskId) (order : List TaskId → List TaskId) (s : BSt)
    (h : insertSet E fuel g ts filter visit order = .ok s) :
    (dagOps (insertAllocs E ea fuel g ts filter visit order)).foldl DOp.onDag g = s.dag ∧
    DOk ea g (dagOps (insertAllocs E ea fuel g ts filter visit order)) := by
  unfold insertSet at h
  dsimp only at h
  split at h
  · rename_i s0 h0
    cases h
    have t1 := takes_tmp E ea fuel filter visit _ s0 (by intro e he; cases he) h0
    have t2 := takes_index E ea (order (s0.index.map Prod.fst)) s0 t1.idx
    have t := t1.trans t2
    unfold insertAllocs
    simp only [h0]
    rw [dagOps_append, dagOps_map, List.nil_append]
    exact ⟨t.ops, t.ok⟩
  · cases h
  · cases h

/-- nodes and edges are put in front -/
theorem onDag_suffix (os : List DOp) (d : Dag) :
    d.nodes <:+ (os.foldl DOp.onDag d).nodes ∧ d.edges <:+ (os.foldl DOp.onDag d).edges := by
  induction os generalizing d with
  | nil => exact ⟨List.suffix_refl _, List.suffix_refl _⟩
  | cons o os ih =>
    obtain ⟨h1, h2⟩ := ih (o.onDag d)
    rw [List.foldl_cons]
    refine ⟨.trans ?_ h1, .trans ?_ h2⟩ <;> cases o
    · exact List.suffix_cons _ _
    · exact List.suffix_refl _
    · exact List.suffix_refl _
    · exact List.suffix_cons _ _

/-- what is there keeps its name and its task if no node is placed on another one -/
theorem onDag_data (os : List DOp) (d : Dag) (hn : (os.foldl DOp.onDag d).nodes.Nodup) :
    ∀ n ∈ d.nodes, (os.foldl DOp.onDag d).name n = d.name n ∧ (os.foldl DOp.onDag d).task n = d.task n := by
  induction os generalizing d with
  | nil => intro n _; exact ⟨rfl, rfl⟩
  | cons o os ih =>
    intro n hm
    rw [List.foldl_cons] at hn ⊢
    obtain ⟨h1, h2⟩ := ih (o.onDag d) hn n (by
      cases o
      · exact List.mem_cons_of_mem _ hm
      · exact hm)
    rw [h1, h2]
    cases o with
    | emplace a name t =>
      have : (a :: d.nodes).Nodup := ((onDag_suffix os (d.emplace a name t)).1.sublist.nodup hn)
      have hne : n ≠ a := by rintro rfl; exact (List.nodup_cons.1 this).1 hm
      simp [DOp.onDag, Dag.emplace, hne]
    | addEdge e s t k => exact ⟨rfl, rfl⟩

theorem dok_wf {ea : Nat → Nat} {os : List DOp} {d : Dag} (h : DOk ea d os)
    (hd : ∀ e ∈ d.edges, e.src ∈ d.nodes ∧ e.tgt ∈ d.nodes) :
    ∀ e ∈ (os.foldl DOp.onDag d).edges,
      e.src ∈ (os.foldl DOp.onDag d).nodes ∧ e.tgt ∈ (os.foldl DOp.onDag d).nodes := by
  induction os generalizing d with
  | nil => exact hd
  | cons o os ih =>
    rw [List.foldl_cons]
    refine ih h.2 ?_
    cases o with
    | emplace a name t =>
      intro e he
      exact ⟨List.mem_cons_of_mem _ (hd e he).1, List.mem_cons_of_mem _ (hd e he).2⟩
    | addEdge x s t k =>
      intro e he
      rcases List.mem_cons.1 he with rfl | he
      · exact h.1.2
      · exact hd e he

end Joque
