import Verif.Spec.Inserted
import Verif.Props.Dag
import Verif.Props.Parallel

/-! # C97: tasks inserted more than once -/

namespace Joque

theorem insert_copies {E : BEnv} {g : Dag} {ts : TaskSet} {univ visit : List TaskId}
    {order : List TaskId → List TaskId} (h : BuildEnv E g ts univ visit order) {fuel : Nat}
    (hfuel : univ.length < fuel) {filter : Str} {s : BSt}
    (hs : insertSet E fuel g ts filter visit order = .ok s) (t : TaskId) :
    copies s.dag t = copies g t + (open Classical in if Selected E.store ts filter t then 1 else 0) := by
  classical
  obtain ⟨hsuf, hold⟩ := C52_existing E g ts univ visit order h fuel hfuel filter s hs
  obtain ⟨hnd, hsel, -⟩ := C22_selected E g ts univ visit order h fuel hfuel filter s hs
  obtain ⟨-, -, hwf⟩ := C23_edges E g ts univ visit order h fuel hfuel filter s hs
  obtain ⟨new, hnew⟩ := hsuf
  have hdis : ∀ n ∈ new, n ∉ g.nodes := by
    have := hwf.nodup
    rw [← hnew] at this
    exact fun n hn hg => (List.nodup_append.1 this).2.2 n hn n hg rfl
  have hN : newNodes g s = new := by
    unfold newNodes
    rw [← hnew, List.filter_append, List.filter_eq_self.2 (fun n hn => by simpa using hdis n hn)]
    rw [List.filter_eq_nil_iff.2 (fun n hn => by simpa using hn), List.append_nil]
  rw [hN] at hnd hsel
  unfold copies
  rw [← hnew, List.countP_append]
  have h1 : g.nodes.countP (fun n => decide (s.dag.task n = t)) = g.nodes.countP (fun n => decide (g.task n = t)) := by
    apply List.countP_congr
    intro n hn
    rw [(hold n hn).1]
  have h2 : new.countP (fun n => decide (s.dag.task n = t)) = (new.map s.dag.task).count t := by
    rw [List.count_eq_countP, List.countP_map]
    apply List.countP_congr
    intro n _
    simp
  rw [h1, h2, hnd.count, Nat.add_comm]
  congr 1
  by_cases hS : Selected E.store ts filter t
  · rw [if_pos ((hsel t).2 hS), if_pos hS]
  · rw [if_neg fun hm => hS ((hsel t).1 hm), if_neg hS]

/-- **C97**, what is the case: a task has as many nodes as there were calls that selected it. -/
theorem C97_exact (st : Store) (cs : List (TaskSet × Str)) (g : Dag) (h : InsertedBy st cs g) (t : TaskId) :
    copies g t = selections st cs t := by
  classical
  induction h with
  | none => rfl
  | call h hE hb hf hs ih =>
    rw [insert_copies hb hf hs, ih, hE]
    unfold selections
    rw [List.countP_cons]
    simp

theorem copies_nodup {g : Dag} (h : ∀ t, copies g t ≤ 1) : (g.nodes.map g.task).Nodup := by
  rw [List.nodup_iff_count_le_one]
  intro t
  have : (g.nodes.map g.task).count t = copies g t := by
    rw [List.count_eq_countP, List.countP_map]
    apply List.countP_congr
    intro n _
    simp
  rw [this]
  exact h t

theorem inserted_wf {st : Store} {cs : List (TaskSet × Str)} {g : Dag} (h : InsertedBy st cs g) : g.WF := by
  induction h with
  | none => exact ⟨by simp [Dag.empty], by simp [Dag.empty]⟩
  | call h hE hb hf hs ih => exact (C23_edges _ _ _ _ _ _ hb _ hf _ _ hs).2.2

/-- **C97** (partial).  If no task is selected twice, each has one node. -/
theorem C97_partial (st : Store) (cs : List (TaskSet × Str)) (g : Dag) (h : InsertedBy st cs g)
    (hd : ∀ t, selections st cs t ≤ 1) : (g.nodes.map g.task).Nodup :=
  copies_nodup fun t => by rw [C97_exact st cs g h]; exact hd t

/-- how often the job of the task was called -/
def calledFor (g : Dag) (tr : List Event) (t : TaskId) : Nat :=
  tr.countP fun e => match e with
    | .jobBegin n _ => decide (g.task n = t)
    | _ => false

/-- nodes whose job began -/
def begunNodes (tr : List Event) : List Node :=
  tr.filterMap fun e => match e with
    | .jobBegin n _ => some n
    | _ => none

theorem mem_begunNodes {tr : List Event} {n : Node} : n ∈ begunNodes tr ↔ JobBegan tr n := by
  unfold begunNodes JobBegan
  rw [List.mem_filterMap]
  constructor
  · rintro ⟨e, he, h⟩
    split at h
    · cases h; exact ⟨_, he⟩
    · cases h
  · rintro ⟨b, h⟩
    exact ⟨_, h, rfl⟩

theorem begunNodes_nodup : ∀ tr : List Event, (∀ pre post n b, tr = pre ++ .jobBegin n b :: post →
    ¬ JobBegan post n) → (begunNodes tr).Nodup := by
  intro tr
  induction tr with
  | nil => intro _; exact List.nodup_nil
  | cons e tr ih =>
    intro h
    have ih := ih fun pre post n b he => h (e :: pre) post n b (by rw [he]; rfl)
    unfold begunNodes at ih ⊢
    rw [List.filterMap_cons]
    split
    · exact ih
    · rename_i n hn
      split at hn
      · cases hn
        refine List.nodup_cons.2 ⟨fun hm => ?_, ih⟩
        exact h [] tr _ _ rfl (mem_begunNodes.1 hm)
      · cases hn

theorem calledFor_eq (g : Dag) (tr : List Event) (t : TaskId) :
    calledFor g tr t = (begunNodes tr).countP fun n => decide (g.task n = t) := by
  unfold calledFor begunNodes
  induction tr with
  | nil => rfl
  | cons e tr ih =>
    rw [List.countP_cons, List.filterMap_cons, ih]
    cases e <;> simp [List.countP_cons]

/-- **C97**, how often a job is called: at most once for each call that selected its task. -/
theorem C97_runs (st : Store) (cs : List (TaskSet × Str)) (g : Dag) (h : InsertedBy st cs g) (tc : Nat)
    (ms : List Move) (t : TaskId) :
    calledFor g (exec (execCfg st g tc) ms).trace t ≤ selections st cs t := by
  have hwf : (execCfg st g tc).dag.WF := inserted_wf h
  have h1 := C02_at_most_once (execCfg st g tc) hwf ms
  rw [calledFor_eq, ← C97_exact st cs g h]
  refine List.Subperm.countP_le _ ?_
  refine List.subperm_of_subset (begunNodes_nodup _ fun pre post n b he => (h1 pre post n b he).2.2) ?_
  intro n hn
  obtain ⟨b, hb⟩ := mem_begunNodes.1 hn
  obtain ⟨pre, post, he⟩ := List.append_of_mem hb
  exact (h1 pre post n b he).1

/-- **C97**, orderings: every edge joins nodes of one call, so that `depends_on` and `run_after` do not
order what was inserted by different ones. -/
theorem C97_apart (st : Store) (cs : List (TaskSet × Str)) (g : Dag) (h : InsertedBy st cs g) :
    ∃ call : Node → Nat, (∀ n ∈ g.nodes, ∃ c, cs[call n]? = some c ∧ Selected st c.1 c.2 (g.task n)) ∧
      (∀ n ∈ g.nodes, ∀ m ∈ g.nodes, call n = call m → g.task n = g.task m → n = m) ∧
      ∀ e ∈ g.edges, call e.src = call e.tgt := by
  induction h with
  | none => exact ⟨fun _ => 0, by simp [Dag.empty], by simp [Dag.empty], by simp [Dag.empty]⟩
  | @call cs g E ts filter univ visit order fuel s h hE hb hf hs ih =>
    obtain ⟨call, h1, h2, h3⟩ := ih
    obtain ⟨-, hold⟩ := C52_existing E g ts univ visit order hb fuel hf filter s hs
    obtain ⟨hnd, hsel, -⟩ := C22_selected E g ts univ visit order hb fuel hf filter s hs
    obtain ⟨-, hed, -⟩ := C23_edges E g ts univ visit order hb fuel hf filter s hs
    have hnew : ∀ n ∈ s.dag.nodes, n ∉ g.nodes → n ∈ newNodes g s := fun n hn hg => by
      simp [newNodes, hn, hg]
    have hwf := inserted_wf h
    refine ⟨fun n => if n ∈ g.nodes then call n + 1 else 0, fun n hn => ?_, fun n hn m hm hc ht => ?_,
      fun e he => ?_⟩
    · by_cases hg : n ∈ g.nodes
      · obtain ⟨c, hc, hS⟩ := h1 n hg
        exact ⟨c, by simpa [hg] using hc, by rw [(hold n hg).1]; exact hS⟩
      · refine ⟨(ts, filter), by simp [hg], ?_⟩
        rw [← hE]
        exact (hsel _).1 (List.mem_map.2 ⟨n, hnew n hn hg, rfl⟩)
    · dsimp only at hc
      by_cases hgn : n ∈ g.nodes <;> by_cases hgm : m ∈ g.nodes
      · simp only [hgn, hgm, if_true] at hc
        rw [(hold n hgn).1, (hold m hgm).1] at ht
        exact h2 n hgn m hgm (by omega) ht
      · simp [hgn, hgm] at hc
      · simp [hgn, hgm] at hc
      · exact List.inj_on_of_nodup_map hnd (hnew n hn hgn) (hnew m hm hgm) ht
    · rcases hed e he with ⟨ha, hb'⟩ | ho
      · have na : e.src ∉ g.nodes := by simpa [newNodes] using (List.mem_filter.1 ha).2
        have nb : e.tgt ∉ g.nodes := by simpa [newNodes] using (List.mem_filter.1 hb').2
        simp [na, nb]
      · obtain ⟨ha, hb'⟩ := hwf.closed e ho
        simp [ha, hb', h3 e ho]

/-- **C97**: two nodes of one task are never ordered, directly or through others. -/
theorem C97_unordered (st : Store) (cs : List (TaskSet × Str)) (g : Dag) (h : InsertedBy st cs g)
    (x y : Node) (hx : x ∈ g.nodes) (hy : y ∈ g.nodes) (ht : g.task x = g.task y) (hne : x ≠ y) :
    ¬ Relation.TransGen (AfterEdge g) x y := by
  obtain ⟨call, -, h2, h3⟩ := C97_apart st cs g h
  intro hp
  refine hne (h2 x hx y hy ?_ ht)
  have key : ∀ z, Relation.TransGen (AfterEdge g) x z → call x = call z := by
    intro z hz
    induction hz with
    | single he => exact h3 _ he
    | tail _ he ih => exact ih.trans (h3 _ he)
  exact key y hp

theorem inserted_requires {st : Store} {cs : List (TaskSet × Str)} {g : Dag} (h : InsertedBy st cs g) :
    ∀ a b, HasEdge g .requires a b → AfterEdge g a b := by
  induction h with
  | none => intro a b h; simp [HasEdge, Dag.empty] at h
  | @call cs g E ts filter univ visit order fuel s h hE hb hf hs ih =>
    obtain ⟨hcount, hed, -⟩ := C23_edges E g ts univ visit order hb fuel hf filter s hs
    intro a b he
    rcases hed _ he with ⟨ha, hb'⟩ | ho
    · have h1 := hcount a ha b hb' .requires
      have h2 := hcount a ha b hb' .after
      have h3 : 0 < s.dag.edges.count ⟨a, b, .requires⟩ := List.count_pos_iff.2 he
      refine List.count_pos_iff.1 ?_
      rw [h2]
      rw [h1] at h3
      simp only [declared] at h3 ⊢
      omega
    · have hin := ih a b ho
      obtain ⟨-, hold⟩ := C52_existing E g ts univ visit order hb fuel hf filter s hs
      have ha := ((inserted_wf h).closed _ hin).1
      have h1 : (⟨a, b, .after⟩ : Edge) ∈ g.outEdges a :=
        List.mem_filter.2 ⟨hin, by simp⟩
      rw [← (hold a ha).2.2.1] at h1
      exact (List.mem_filter.1 h1).1

/-- **C97**, at the same time: with two threads, two nodes of a task that are both to be executed can
execute at one moment, exactly if the task uses no resource.  Then the two calls of the job are a data race
as well. -/
theorem C97_overlap (st : Store) (cs : List (TaskSet × Str)) (g : Dag) (h : InsertedBy st cs g) (tc : Nat)
    (htc : 2 ≤ tc) (hG : Healthy (execCfg st g tc)) (x y : Node) (hx : x ∈ g.nodes) (hy : y ∈ g.nodes)
    (ht : g.task x = g.task y) (hne : x ≠ y)
    (hex : ∀ n ∈ [x, y], ∃ ms, JobBegan (exec (execCfg st g tc) ms).trace n) :
    ((∃ ms, Running (exec (execCfg st g tc) ms).trace x ∧ Running (exec (execCfg st g tc) ms).trace y) ↔
      (st (g.task x)).resources = []) ∧
    ((st (g.task x)).resources = [] →
      ∃ ms i j, DataRace (execCfg st g tc).dag (exec (execCfg st g tc) ms).trace i j) := by
  have hI : (st (g.task x)).resources = [] → Independent (execCfg st g tc) [x, y] := fun h0 =>
    { nodup := by simp [hne]
      threads := htc
      unordered := by
        have hu := C97_unordered st cs g h
        have ha : ∀ z, ¬ Relation.TransGen (AfterEdge g) z z := fun z hz => hG.acyclic ⟨z, hz⟩
        intro a ha' b hb'
        simp only [List.mem_cons, List.not_mem_nil, or_false] at ha' hb'
        rcases ha' with rfl | rfl <;> rcases hb' with rfl | rfl
        · exact ha _
        · exact hu _ _ hx hy ht hne
        · exact hu _ _ hy hx ht.symm (Ne.symm hne)
        · exact ha _
      resources := by
        intro a ha' z _ b _ _ _ r hr
        have : (execCfg st g tc).resources a = [] := by
          simp only [List.mem_cons, List.not_mem_nil, or_false] at ha'
          rcases ha' with rfl | rfl
          · exact h0
          · show (st (g.task a)).resources = []
            rw [← ht]; exact h0
        rw [this] at hr
        cases hr }
  refine ⟨⟨?_, fun h0 => ?_⟩, fun h0 => C85_race _ hG (inserted_requires h) x y (hI h0) ht hex⟩
  · rintro ⟨ms, hrx, hry⟩
    by_contra h0
    obtain ⟨r, hr⟩ := List.exists_mem_of_ne_nil _ h0
    refine C03_resource_exclusivity _ hG.wf ms _ [] (List.append_nil _).symm x y hrx hry hne r hr ?_
    show r ∈ (st (g.task y)).resources
    rw [← ht]; exact hr
  · obtain ⟨ms, hms⟩ := C87_parallel _ hG (inserted_requires h) [x, y] (hI h0) hex [] (.inr rfl)
      (fun x _ h => by simp [JobEnded, exec, St.init] at h)
    exact ⟨[] ++ ms, hms x (by simp), hms y (by simp)⟩

/-! ## Two filters -/

namespace Ex

/-- `a` and `c` depend on `lib` -/
def libSet : TaskSet := .mk [("a".toList, 1), ("c".toList, 2), ("lib".toList, 0)] []

def libStore : Store := fun t => if t = 1 ∨ t = 2 then { plain with dependsOn := [0] } else plain

def libEnv (k : Nat) : BEnv := { store := libStore, alloc := fun i => k + i, rehash := fun _ => false }

theorem libSet_at {p t} (h : At libSet p t) :
    (p, t) ∈ [(["a".toList], 1), (["c".toList], 2), (["lib".toList], 0)] := by
  have := (paths_at _ _ _).2 h
  have he : paths libSet = [(["a".toList], 1), (["c".toList], 2), (["lib".toList], 0)] := by decide +kernel
  rwa [he] at this

theorem libSet_wf : libSet.WF := by
  refine ⟨.mk ?_ (by simp) (by simp), fun p q t hp hq => ?_⟩
  · decide +kernel
  · have h1 := libSet_at hp
    have h2 := libSet_at hq
    simp only [List.mem_cons, List.not_mem_nil, or_false, Prod.mk.injEq] at h1 h2
    rcases h1 with ⟨rfl, rfl⟩ | ⟨rfl, rfl⟩ | ⟨rfl, rfl⟩ <;>
      rcases h2 with ⟨rfl, h⟩ | ⟨rfl, h⟩ | ⟨rfl, h⟩ <;> first | rfl | (exact absurd h (by decide))

theorem libBuildEnv (k : Nat) (g : Dag) (hg : g.WF) (hk : ∀ i, k + i ∉ g.nodes) :
    BuildEnv (libEnv k) g libSet [0, 1, 2] [0, 1, 2] id where
  set := libSet_wf
  dag := hg
  allocInj := fun i j h => by simp [libEnv] at h; omega
  allocFresh := hk
  closed := fun t _ d hd => by
    simp only [DependsOn, libEnv, libStore] at hd
    split at hd
    · simp at hd; simp [hd]
    · simp [plain] at hd
  univ := fun t ⟨p, hp⟩ => by
    have h1 := libSet_at hp
    simp only [List.mem_cons, List.not_mem_nil, or_false, Prod.mk.injEq] at h1 ⊢
    rcases h1 with ⟨-, rfl⟩ | ⟨-, rfl⟩ | ⟨-, rfl⟩ <;> simp
  visit := fun t ⟨p, hp⟩ => by
    have h1 := libSet_at hp
    simp only [List.mem_cons, List.not_mem_nil, or_false, Prod.mk.injEq] at h1 ⊢
    rcases h1 with ⟨-, rfl⟩ | ⟨-, rfl⟩ | ⟨-, rfl⟩ <;> simp
  order := fun l => List.Perm.refl l

def lib1 : BOut := insertSet (libEnv 10) 4 Dag.empty libSet "/a".toList [0, 1, 2] id

/-- after `insert_set(g, ts, "/a")` -/
def libDag1 : Dag := match lib1 with | .ok s => s.dag | _ => Dag.empty

def lib2 : BOut := insertSet (libEnv 20) 4 libDag1 libSet "/c".toList [0, 1, 2] id

/-- and then `insert_set(g, ts, "/c")` -/
def libDag2 : Dag := match lib2 with | .ok s => s.dag | _ => Dag.empty

end Ex

/-- what each call added: `a` at 10, `lib` at 11; `c` at 20, `lib` again at 21 -/
example : Ex.libDag2.nodes.map (fun n => (n, Ex.libDag2.name n, Ex.libDag2.task n)) =
    [(21, "//lib".toList, 0), (20, "//c".toList, 2), (11, "//lib".toList, 0), (10, "//a".toList, 1)] := by
  decide +kernel

theorem Ex.lib_inserted : InsertedBy Ex.libStore
    [(Ex.libSet, "/c".toList), (Ex.libSet, "/a".toList)] Ex.libDag2 := by
  have h1 : InsertedBy Ex.libStore [(Ex.libSet, "/a".toList)] Ex.libDag1 :=
    .call (fuel := 4) (s := match Ex.lib1 with | .ok s => s | _ => ⟨Dag.empty, [], []⟩) .none rfl
      (Ex.libBuildEnv 10 Dag.empty ⟨by simp [Dag.empty], by simp [Dag.empty]⟩ (by simp [Dag.empty]))
      (by decide) rfl
  have hn : Ex.libDag1.nodes = [11, 10] := by decide +kernel
  exact .call (fuel := 4) (s := match Ex.lib2 with | .ok s => s | _ => ⟨Dag.empty, [], []⟩) h1 rfl
    (Ex.libBuildEnv 20 _ (inserted_wf h1) (fun i hi => by rw [hn] at hi; simp at hi; omega))
    (by decide) rfl

/-- **C97** is false: a set whose tasks `a` and `c` depend on `lib`, inserted once for each of them.  `lib`
has two nodes, both are executed, and there is a moment at which both are executing. -/
theorem C97_counterexample : ∃ (st : Store) (ts : TaskSet) (g : Dag),
    InsertedBy st [(ts, "/c".toList), (ts, "/a".toList)] g ∧ copies g 0 = 2 ∧
    (∃ ms, (exec (execCfg st g 2) ms).phase = .finished ∧
      calledFor g (exec (execCfg st g 2) ms).trace 0 = 2) ∧
    ∃ ms x y, x ≠ y ∧ g.task x = 0 ∧ g.task y = 0 ∧ Running (exec (execCfg st g 2) ms).trace x ∧
      Running (exec (execCfg st g 2) ms).trace y := by
  refine ⟨Ex.libStore, Ex.libSet, Ex.libDag2, Ex.lib_inserted, by decide +kernel,
    ⟨List.replicate 20 .ctl ++ [.begin 11, .begin 21, .finish 11, .finish 21] ++ List.replicate 20 .ctl ++
      [.begin 10, .begin 20, .finish 10, .finish 20] ++ List.replicate 8 .ctl, by decide +kernel,
      by decide +kernel⟩, ?_⟩
  have h : ∀ n ∈ [11, 21], Event.jobBegin n false ∈ (exec (execCfg Ex.libStore Ex.libDag2 2)
      (List.replicate 20 .ctl ++ [.begin 11, .begin 21])).trace ∧
      Event.jobEnd n ∉ (exec (execCfg Ex.libStore Ex.libDag2 2)
      (List.replicate 20 .ctl ++ [.begin 11, .begin 21])).trace := by decide +kernel
  exact ⟨_, 11, 21, by decide, by decide +kernel, by decide +kernel,
    ⟨⟨false, (h 11 (by simp)).1⟩, (h 11 (by simp)).2⟩, ⟨⟨false, (h 21 (by simp)).1⟩, (h 21 (by simp)).2⟩⟩

/-- one call that selects everything -/
example : ∃ g, InsertedBy Ex.libStore [(Ex.libSet, [])] g ∧
    (∀ t, selections Ex.libStore [(Ex.libSet, [])] t ≤ 1) ∧ g.nodes.length = 3 := by
  refine ⟨_, .call (E := Ex.libEnv 10) (fuel := 4) (s := match insertSet (Ex.libEnv 10) 4 Dag.empty Ex.libSet []
      [0, 1, 2] id with | .ok s => s | _ => ⟨Dag.empty, [], []⟩) .none rfl
    (Ex.libBuildEnv 10 Dag.empty ⟨by simp [Dag.empty], by simp [Dag.empty]⟩ (by simp [Dag.empty]))
    (by decide) rfl, fun t => ?_, by decide +kernel⟩
  unfold selections
  exact List.countP_le_length

/-- the hypotheses of `C97_overlap` are met by the two nodes of `lib` -/
example : Healthy (execCfg Ex.libStore Ex.libDag2 2) ∧
    ∀ n ∈ [11, 21], ∃ ms, JobBegan (exec (execCfg Ex.libStore Ex.libDag2 2) ms).trace n := by
  have hj : ∀ t, (Ex.libStore t).job = Ex.plain.job := fun t => by
    unfold Ex.libStore
    split <;> rfl
  refine ⟨⟨inserted_wf Ex.lib_inserted, ?_, by decide +kernel, ?_, ?_⟩, ?_⟩
  · exact (inv_exec (C := execCfg Ex.libStore Ex.libDag2 2) (inserted_wf Ex.lib_inserted)
      (List.replicate 20 .ctl)).acyc (by decide +kernel)
  · intro n _
    refine ⟨⟨true, "always invalidated".toList⟩, ?_⟩
    show (match (Ex.libStore (Ex.libDag2.task n)).job with
      | some j => j.isInvalidated
      | none => .throws []) = _
    rw [hj]; rfl
  · intro n _ rr hrr
    change (match (Ex.libStore (Ex.libDag2.task n)).job with
      | some j => j.run
      | none => .throwsOther) = _ at hrr
    rw [hj] at hrr
    cases hrr
    simp
  · intro n hn
    have : ∀ n ∈ [11, 21], Event.jobBegin n false ∈ (exec (execCfg Ex.libStore Ex.libDag2 2)
      (List.replicate 20 .ctl ++ [.begin 11, .begin 21])).trace := by decide +kernel
    exact ⟨_, false, this n hn⟩

end Joque
