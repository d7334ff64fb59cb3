import Verif.Model.Remove
import Verif.Props.GraphHeap
import Verif.Props.Exec6
import Verif.Props.Sync2

/-! # Removing tasks from a dag before it is executed -/

namespace Joque

/-! ## The linked graph -/

theorem run_onHeapR (g : Nat) (os : List ROp) (a : Graphs) (d : Dag) (hn : a.seq g = d.nodes)
    (he : a.edges.map Prod.snd = d.edges) (hg : a.graphs g) :
    (GOp.run a (os.map (ROp.onHeap g))).seq g = (os.foldl ROp.onDag d).nodes ∧
    (GOp.run a (os.map (ROp.onHeap g))).edges.map Prod.snd = (os.foldl ROp.onDag d).edges ∧
    (GOp.run a (os.map (ROp.onHeap g))).graphs g := by
  induction os generalizing a d with
  | nil => exact ⟨hn, he, hg⟩
  | cons o os ih =>
    refine ih ((o.onHeap g).apply a) (o.onDag d) ?_ ?_ ?_
    · rcases o with (_ | _) | f
      · show fset a.seq g (_ :: a.seq g) g = _ :: d.nodes
        rw [fset_same, hn]
      · exact hn
      · show fset a.seq g _ g = d.nodes.filter _
        rw [fset_same, hn]
    · rcases o with (_ | _) | f
      · exact he
      · show (_ : Edge) :: a.edges.map Prod.snd = _
        rw [he]; rfl
      · show (a.edges.filter _).map Prod.snd = d.edges.filter _
        rw [← he, List.filter_map]
        congr 1
        apply List.filter_congr
        intro p _
        simp [touches, hn, List.mem_filter]
    · rcases o with (_ | _) | f <;> exact hg

/-- **C111**, the linked objects.  Making a dag by hand through `emplace`, `add_edge` and `clear_if`:
iterating the graph, the out edges and the in edges of any of its nodes gives exactly what the `Dag` of the
model says, in the same order – also after the graph was moved, as `exec` does. -/
theorem C111_refines (g g' : Nat) (hgg : g' ≠ g) (os : List ROp)
    (hok : GOk Graphs.init (.newGraph g :: os.map (ROp.onHeap g))) (fuel : Nat)
    (hf : os.length + 2 < fuel) :
    ∃ s s', GH.empty.ops fuel (.newGraph g :: os.map (ROp.onHeap g)) = some s ∧
      s.moveConstruct g' g = some s' ∧
      s.nodes fuel g = some (os.foldl ROp.onDag Dag.empty).nodes ∧
      s'.nodes fuel g' = some (os.foldl ROp.onDag Dag.empty).nodes ∧
      ∀ n ∈ (os.foldl ROp.onDag Dag.empty).nodes,
        s.outEdges fuel n = some ((os.foldl ROp.onDag Dag.empty).outEdges n) ∧
        s.inEdges fuel n = some ((os.foldl ROp.onDag Dag.empty).inEdges n) ∧
        s'.outEdges fuel n = some ((os.foldl ROp.onDag Dag.empty).outEdges n) ∧
        s'.inEdges fuel n = some ((os.foldl ROp.onDag Dag.empty).inEdges n) := by
  have hlen : (GOp.newGraph g :: os.map (ROp.onHeap g)).length < fuel := by
    rw [List.length_cons, List.length_map]; omega
  obtain ⟨s, hs⟩ := C31_safe _ hok fuel hlen
  obtain ⟨hI, h1, h2⟩ := GInv.reach hok hlen hs
  obtain ⟨hn, he, hg⟩ := run_onHeapR g os ((GOp.newGraph g).apply Graphs.init) Dag.empty
    (fset_same _ _ _) rfl (.inl rfl)
  have hrun : GOp.run Graphs.init (.newGraph g :: os.map (ROp.onHeap g))
    = GOp.run ((GOp.newGraph g).apply Graphs.init) (os.map (ROp.onHeap g)) := rfl
  have hng : ¬ (GOp.run Graphs.init (.newGraph g :: os.map (ROp.onHeap g))).graphs g' := by
    have : ∀ (os : List ROp) (a : Graphs), (GOp.run a (os.map (ROp.onHeap g))).graphs = a.graphs := by
      intro os
      induction os with
      | nil => intro a; rfl
      | cons o os ih =>
        intro a
        refine (ih ((o.onHeap g).apply a)).trans ?_
        rcases o with (_ | _) | f <;> rfl
    rw [hrun, this]
    rintro (h | h)
    · exact hgg h
    · exact h
  rw [← hrun] at hn he hg
  generalize GOp.run Graphs.init (.newGraph g :: os.map (ROp.onHeap g)) = a at *
  have hnodes : s.nodes fuel g = some (os.foldl ROp.onDag Dag.empty).nodes := by
    rw [hI.nodes (fuel := fuel) hg (Nat.le_of_lt (h1 g)), hn]
  obtain ⟨s', e', hI', _⟩ := hI.moveGraph hng hg
  have hseq' : ((GOp.moveGraph g' g).apply a).seq g' = a.seq g := by
    show fset _ _ _ g' = _
    rw [fset_other _ _ hgg, fset_same]
  refine ⟨s, s', hs, e', hnodes, ?_, ?_⟩
  · rw [hI'.nodes (g := g') (fuel := fuel) (.inl rfl) (by rw [hseq']; exact Nat.le_of_lt (h1 g)),
      hseq', hn]
  · intro n hm
    have hal : a.Alive n := ⟨g, by rw [hn]; exact hm⟩
    have hal' : ((GOp.moveGraph g' g).apply a).Alive n := ⟨g', by rw [hseq', hn]; exact hm⟩
    refine ⟨?_, ?_, ?_, ?_⟩
    · rw [hI.outEdges hal (Nat.le_of_lt h2), he]; rfl
    · rw [hI.inEdges hal (Nat.le_of_lt h2), he]; rfl
    · rw [hI'.outEdges hal' (Nat.le_of_lt h2)]
      show some ((a.edges.map Prod.snd).filter _) = _
      rw [he]; rfl
    · rw [hI'.inEdges hal' (Nat.le_of_lt h2)]
      show some ((a.edges.map Prod.snd).filter _) = _
      rw [he]; rfl

/-! ## What remains -/

theorem mem_clearIf {g : Dag} {f : Node → Bool} {n : Node} :
    n ∈ (g.clearIf f).nodes ↔ n ∈ g.nodes ∧ f n = false := by
  simp [Dag.clearIf]

theorem edge_clearIf {g : Dag} (hwf : g.WF) {f : Node → Bool} {e : Edge} :
    e ∈ (g.clearIf f).edges ↔ e ∈ g.edges ∧ f e.src = false ∧ f e.tgt = false := by
  simp only [Dag.clearIf, List.mem_filter, Bool.and_eq_true, Bool.not_eq_true', Bool.and_eq_false_iff,
    decide_eq_false_iff_not]
  constructor
  · rintro ⟨h, h1, h2⟩
    exact ⟨h, h1.resolve_left (not_not_intro (hwf.closed _ h).1),
      h2.resolve_left (not_not_intro (hwf.closed _ h).2)⟩
  · rintro ⟨h, h1, h2⟩
    exact ⟨h, .inr h1, .inr h2⟩

/-- **C111**, what remains.  The tasks `f` does not hold for, in the same order, with their names and tasks,
and all edges between them; a dag that is in order is in order afterwards. -/
theorem C111_remains (g : Dag) (hwf : g.WF) (f : Node → Bool) :
    (g.clearIf f).WF ∧ (g.clearIf f).nodes.Sublist g.nodes ∧
    (∀ n, n ∈ (g.clearIf f).nodes ↔ n ∈ g.nodes ∧ f n = false) ∧
    (∀ k a b, HasEdge (g.clearIf f) k a b ↔ HasEdge g k a b ∧ f a = false ∧ f b = false) ∧
    (∀ n, (g.clearIf f).name n = g.name n ∧ (g.clearIf f).task n = g.task n) := by
  refine ⟨⟨hwf.nodup.filter _, ?_⟩, List.filter_sublist, fun n => mem_clearIf, ?_, fun n => ⟨rfl, rfl⟩⟩
  · intro e he
    obtain ⟨h1, h2, h3⟩ := (edge_clearIf hwf).1 he
    exact ⟨mem_clearIf.2 ⟨(hwf.closed _ h1).1, h2⟩, mem_clearIf.2 ⟨(hwf.closed _ h1).2, h3⟩⟩
  · intro k a b
    exact edge_clearIf hwf

/-! ## Executing what remains -/

/-- a way from a task to another along AFTER edges through remaining tasks only -/
def RemainingWay (g : Dag) (f : Node → Bool) (a b : Node) : Prop :=
  Relation.TransGen (fun a b => AfterEdge g a b ∧ f a = false ∧ f b = false) a b

/-- **C111**, cycles.  What remains has an AFTER cycle iff there was one none of whose tasks was removed; so
removing tasks never makes a cycle, and breaks the cycles a task of which is removed. -/
theorem C111_cycle (g : Dag) (hwf : g.WF) (f : Node → Bool) (a b : Node) :
    Relation.TransGen (AfterEdge (g.clearIf f)) a b ↔ RemainingWay g f a b := by
  constructor <;> intro h <;> refine Relation.TransGen.lift id ?_ _ _ h <;> intro x y hxy
  · exact (edge_clearIf hwf).1 hxy
  · exact (edge_clearIf hwf).2 hxy

/-- **C111**, order.  A job begins only after every remaining task it was ordered after – directly or through
tasks that remain – is done. -/
theorem C111_order (C : Cfg) (g : Dag) (f : Node → Bool) (hwf : g.WF) (hg : C.dag = g.clearIf f)
    (ms : List Move) (pre post : List Event) (A B : Node) (b : Bool)
    (htr : (exec C ms).trace = pre ++ .jobBegin A b :: post) (hAB : RemainingWay g f A B) :
    Recorded pre B ∧ ¬ Running pre B ∧ ¬ JobBegan post B :=
  C01_transitive C (hg ▸ (C111_remains g hwf f).1) ms pre post A B b htr
    (hg ▸ (C111_cycle g hwf f A B).2 hAB)

/-- `m` is required by `n` or invalidates it, directly or indirectly -/
def Uses (g : Dag) (n m : Node) : Prop :=
  Relation.ReflTransGen (fun a b => HasEdge g .requires a b ∨ HasEdge g .invalidatedBy a b) n m

/-- **C111**, results.  A task none of whose requirements and invalidations was removed, directly or
indirectly, has the same status, return code and output whether tasks are removed or not: for all schedules,
thread counts and resources of the two executions. -/
theorem C111_results (C1 C2 : Cfg) (f : Node → Bool) (hwf : C1.dag.WF) (hg : C2.dag = C1.dag.clearIf f)
    (hask : C2.ask = C1.ask) (hout : C2.outcome = C1.outcome)
    (hra : ∀ a b, HasEdge C1.dag .requires a b → AfterEdge C1.dag a b)
    (ms1 ms2 : List Move) (r1 r2 : RunRecord) (h1 : r1 ∈ recsOf (exec C1 ms1).trace)
    (h2 : r2 ∈ recsOf (exec C2 ms2).trace) (hn : r2.node = r1.node)
    (hkeep : ∀ m, Uses C1.dag r1.node m → f m = false) :
    r1.status = r2.status ∧ r1.retcode = r2.retcode ∧ r1.output = r2.output := by
  obtain ⟨hwf2, _, _, hedge, _⟩ := C111_remains C1.dag hwf f
  rw [← hg] at hwf2 hedge
  have hclosed : ∀ k a b, Uses C1.dag r1.node a → k ≠ .after → HasEdge C1.dag k a b →
      Uses C1.dag r1.node b := by
    intro k a b ha hk h
    refine ha.tail ?_
    cases k with
    | after => exact absurd rfl hk
    | requires => exact .inl h
    | invalidatedBy => exact .inr h
  refine C07_local C1 C2 id (Uses C1.dag r1.node) hwf hwf2 ⟨?_, hclosed, ?_, ?_, ?_, ?_⟩
    (fun a b _ => hra a b) ?_ ms1 ms2 r1 r2 h1 h2 hn .refl
  · intro n h
    rcases Relation.ReflTransGen.cases_tail h with h | ⟨c, _, h | h⟩
    · rw [h]; exact (C02_no_double_record C1 hwf ms1).2 r1 h1
    · exact (hwf.closed _ h).2
    · exact (hwf.closed _ h).2
  · intro k a b ha hk h
    exact (hedge k a b).2 ⟨h, hkeep a ha, hkeep b (hclosed k a b ha hk h)⟩
  · intro k a c ha hk h
    exact ⟨c, ((hedge k a c).1 h).1, rfl⟩
  · intro n _; rw [hask]; rfl
  · intro n _; rw [hout]; rfl
  · intro a b ha h
    obtain ⟨h1, h2, h3⟩ := (hedge _ _ _).1 h
    exact (hedge _ _ _).2 ⟨hra a b h1, h2, h3⟩

/-- **C111**, requirements.  After the removal a task is DEPF only because of a task that remains. -/
theorem C111_depf (C : Cfg) (g : Dag) (f : Node → Bool) (hwf : g.WF) (hg : C.dag = g.clearIf f)
    (ms : List Move) (r : RunRecord) (hr : r ∈ recsOf (exec C ms).trace) (hd : r.status = .depf) :
    ∃ q ∈ recsOf (exec C ms).trace, HasEdge g .requires r.node q.node ∧ f q.node = false ∧ Bad q := by
  obtain ⟨q, hq, h, hb⟩ := C05_only_if C (hg ▸ (C111_remains g hwf f).1) ms r hr hd
  rw [hg] at h
  obtain ⟨h1, _, h3⟩ := ((C111_remains g hwf f).2.2.2.1 _ _ _).1 h
  exact ⟨q, hq, h1, h3, hb⟩

/-- **C111**, completeness.  A successful execution of what remains has one record for each task that remains
and none for the others. -/
theorem C111_records (C : Cfg) (g : Dag) (f : Node → Bool) (hwf : g.WF) (hg : C.dag = g.clearIf f)
    (ms : List Move) (hfin : (exec C ms).phase = .finished) :
    ((exec C ms).erec.runs.map RunRecord.node).Perm (g.nodes.filter (fun n => !f n)) := by
  have := (C02_one_record C (hg ▸ (C111_remains g hwf f).1) ms hfin).1
  rw [hg] at this
  exact this

/-- **C111**, completion.  If the whole dag has no AFTER cycle and jobs are in order, so is what remains: every
fair schedule comes to its end. -/
theorem C111_completes (C : Cfg) (g : Dag) (f : Node → Bool) (hg : C.dag = g.clearIf f)
    (hG : Healthy { C with dag := g }) (σ : Nat → Move) (hF : Fair C σ) :
    ∃ i, (runSched C σ i).phase = .finished := by
  have hwf : g.WF := hG.wf
  obtain ⟨h1, _, h3, _, _⟩ := C111_remains g hwf f
  rw [← hg] at h1 h3
  refine C11_completes C ⟨h1, ?_, ?_, ?_, ?_⟩ σ hF
  · rintro ⟨n, hn⟩
    rw [hg, C111_cycle g hwf f] at hn
    exact hG.acyclic ⟨n, Relation.TransGen.lift id (fun _ _ h => h.1) _ _ hn⟩
  · exact fun n hn => hG.jobs n ((h3 n).1 hn).1
  · exact fun n hn => hG.answers n ((h3 n).1 hn).1
  · exact fun n hn => hG.codes n ((h3 n).1 hn).1

/-! ## Examples -/

namespace Ex

/-- the tasks of `Ex.dag` without those `f` holds for -/
def without (f : Node → Bool) (tc : Nat) : Cfg := { cfg tc with dag := dag.clearIf f }

end Ex

/-- three tasks and three edges added, one task removed, another one added at its address -/
def Ex.rprog : List ROp :=
  [.op (.emplace 10 ['a'] 1), .op (.emplace 11 ['b'] 2), .op (.emplace 12 ['c'] 3),
   .op (.addEdge 100 12 11 .after), .op (.addEdge 101 11 10 .after), .op (.addEdge 102 12 10 .requires),
   .remove (· == 11), .op (.emplace 11 ['d'] 4), .op (.addEdge 103 11 12 .after)]

example : GOk Graphs.init (.newGraph 1 :: Ex.rprog.map (ROp.onHeap 1)) ∧
    (Ex.rprog.foldl ROp.onDag Dag.empty).nodes = [11, 12, 10] ∧
    (Ex.rprog.foldl ROp.onDag Dag.empty).edges = [⟨11, 12, .after⟩, ⟨12, 10, .requires⟩] ∧
    (Ex.rprog.foldl ROp.onDag Dag.empty).name 11 = ['d'] := by
  refine ⟨?_, by decide, by decide, by decide⟩
  simp [GOk, GOp.Pre, GOp.apply, Graphs.init, Ex.rprog, Graphs.Alive, fset, DOp.onHeap, ROp.onHeap, touches]
  and_intros <;> first | exact ⟨1, by simp⟩ | (intro x; split_ifs <;> simp)

/-- task 2 removed: task 3, ordered after it, is still ordered after 1 and keeps its result -/
example : (Ex.without (· == 2) 2).dag.nodes = [5, 4, 3, 1] ∧
    RemainingWay Ex.dag (· == 2) 3 1 ∧
    (∃ r1 ∈ recsOf (exec (Ex.cfg 2) Ex.done2).trace,
      ∃ r2 ∈ recsOf (exec (Ex.without (· == 2) 0) (List.replicate 12 .ctl)).trace, r1.node = 3 ∧
        r2.node = r1.node ∧ r1.status = .depf ∧ r2.status = .depf) ∧
    ∀ m, Uses Ex.dag 3 m → (m == 2) = false := by
  refine ⟨by decide, .single ?_, by decide +kernel, ?_⟩
  · exact ⟨by show _ ∈ Ex.dag.edges; decide, by decide, by decide⟩
  · intro m hm
    have : m = 3 ∨ m = 1 := by
      induction hm with
      | refl => exact .inl rfl
      | tail _ h ih =>
        have h' : ∀ e ∈ Ex.dag.edges, e.kind ≠ .after → e.src = 3 ∧ e.tgt = 1 := by decide
        rcases h with h | h <;> exact .inr (h' _ h (by simp)).2
    rcases this with rfl | rfl <;> decide

/-- the condition of `C111_results` is needed: without task 1, which fails, task 3 is not DEPF -/
example : (∃ r1 ∈ recsOf (exec (Ex.cfg 2) Ex.done2).trace, r1.node = 3 ∧ r1.status = .depf) ∧
    ∃ r2 ∈ recsOf (exec (Ex.without (· == 1) 0) (List.replicate 20 .ctl)).trace, r2.node = 3 ∧
      r2.status ≠ .depf := by decide +kernel

example : Healthy { Ex.without (· == 2) 2 with dag := Ex.dag } ∧
    Fair (Ex.without (· == 2) 2) (roundRobin (Ex.without (· == 2) 2)) :=
  ⟨Ex.healthy 2, roundRobin_fair _ (C111_remains Ex.dag (Ex.wf 2) (· == 2)).1⟩

/-- so is that of `C111_order`: task 3 was ordered after 4 through 2; without 2 it is not -/
example : Relation.TransGen (AfterEdge Ex.dag) 3 4 ∧ ¬ RemainingWay Ex.dag (· == 2) 3 4 := by
  constructor
  · exact .tail (.single (b := 2) (by show _ ∈ Ex.dag.edges; decide)) (by show _ ∈ Ex.dag.edges; decide)
  · intro h
    have key : ∀ x y, AfterEdge Ex.dag x y ∧ (x == 2) = false ∧ (y == 2) = false → x = 3 ∧ y = 1 := by
      rintro x y ⟨h1, h2, h3⟩
      have h' : ∀ e ∈ Ex.dag.edges, e.kind = .after → (e.src == 2) = false → (e.tgt == 2) = false →
        e.src = 3 ∧ e.tgt = 1 := by decide
      exact h' _ h1 rfl h2 h3
    rcases Relation.TransGen.tail'_iff.1 h with ⟨c, _, hc⟩
    have := (key _ _ hc).2
    simp at this

end Joque
