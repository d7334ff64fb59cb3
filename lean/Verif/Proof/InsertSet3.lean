import Verif.Proof.InsertSet2
import Verif.Spec.Graph
import Mathlib.Data.List.Induction

namespace Joque

theorem tmp_keys (ts : TaskSet) :
    ((forEachTask ts).map (fun e => (e.2, e.1))).map Prod.fst = (forEachTask ts).map Prod.snd := by
  rw [List.map_map]; rfl

theorem mget_tmp {ts : TaskSet} (h : ts.WF) {t : TaskId} {n : Str} :
    mget ((forEachTask ts).map (fun e => (e.2, e.1))) t = some n ↔
      ∃ p, At ts p t ∧ n = fullName p := by
  constructor
  · intro hm
    obtain ⟨e, he, heq⟩ := List.mem_map.1 (mget_some_mem hm)
    cases heq
    exact mem_forEachTask.1 he
  · rintro ⟨p, hp, rfl⟩
    apply mget_of_mem
    · rw [tmp_keys]; exact tasks_nodup h
    · exact List.mem_map.2 ⟨_, mem_forEachTask.2 ⟨p, hp, rfl⟩, rfl⟩

theorem sel_iff {F : BFix} {ts : TaskSet} (h : ts.WF)
    (htmp : F.tmp0 = (forEachTask ts).map (fun e => (e.2, e.1))) (filter : Str) (t : TaskId) :
    Sel F filter t ↔ Selected F.E.store ts filter t := by
  unfold Sel Selected
  rw [htmp]
  constructor
  · rintro ⟨s, n, hn, hf, hr⟩
    obtain ⟨p, hp, rfl⟩ := (mget_tmp h).1 hn
    exact ⟨p, s, hp, hf, hr⟩
  · rintro ⟨p, s, hp, hf, hr⟩
    exact ⟨s, _, (mget_tmp h).2 ⟨p, hp, rfl⟩, hf, hr⟩

theorem count_soft {lk : TaskId → Option Node} {a b : Node} {k k' : EKind} {tb : TaskId}
    (h1 : lk tb = some b) (h2 : ∀ d, lk d = some b → d = tb) (l : List TaskId) :
    (softEdges lk a k l).count ⟨a, b, k'⟩ = if k = k' then l.count tb else 0 := by
  unfold softEdges
  rw [List.filterMap_reverse, List.count_reverse]
  induction l with
  | nil => simp
  | cons d l ih =>
    rw [List.filterMap_cons]
    cases hd : lk d with
    | none =>
      have : d ≠ tb := by rintro rfl; rw [h1] at hd; cases hd
      simp only [Option.map_none, ih, List.count_cons]
      simp [this]
    | some c =>
      simp only [Option.map_some, List.count_cons, ih]
      by_cases hk : k = k'
      · subst hk
        by_cases hc : c = b
        · subst hc; rw [h2 d hd]; simp
        · have : d ≠ tb := by rintro rfl; rw [h1] at hd; cases hd; exact hc rfl
          simp [hc, this]
      · simp [hk]

theorem count_dep {lk : TaskId → Option Node} {a b : Node} {k : EKind} {tb : TaskId}
    (h1 : lk tb = some b) (h2 : ∀ d, lk d = some b → d = tb) (l : List TaskId) :
    (depEdges lk a l).count ⟨a, b, k⟩ = l.count tb := by
  induction l using List.reverseRecOn with
  | nil => simp [depEdges]
  | append_singleton l d ih =>
    rw [List.count_append, List.count_singleton]
    cases hd : lk d with
    | none =>
      have : d ≠ tb := by rintro rfl; rw [h1] at hd; cases hd
      have he : depEdges lk a (l ++ [d]) = depEdges lk a l := by simp [depEdges, hd]
      rw [he, ih]; simp [this]
    | some c =>
      rw [depEdges_snoc hd]
      by_cases hc : c = b
      · subst hc
        rw [h2 d hd]
        cases k <;> simp [ih]
      · have : d ≠ tb := by rintro rfl; rw [h1] at hd; cases hd; exact hc rfl
        cases k <;> simp [ih, hc, this]

theorem count_out (g : Dag) (a b : Node) (k : EKind) :
    g.edges.count ⟨a, b, k⟩ = (g.outEdges a).count ⟨a, b, k⟩ := by
  unfold Dag.outEdges
  rw [List.count_filter]; simp

/-- the inverse of the index -/
theorem index_inv {F : BFix} {s : BSt} (hI : BInv F s) {t : TaskId} {a : Node}
    (h : mget s.index t = some a) : s.dag.task a = t := (hI.data _ (mget_some_mem h)).1

theorem node_index {F : BFix} {s : BSt} (hI : BInv F s) {a : Node}
    (ha : a ∈ s.index.map Prod.snd) : mget s.index (s.dag.task a) = some a := by
  obtain ⟨e, he, rfl⟩ := List.mem_map.1 ha
  rw [(hI.data e he).1]
  exact mget_of_mem hI.keysNodup he

theorem Built.count {F : BFix} {filter : Str} {s : BSt} (h : Built F filter s) {a b : Node}
    (ha : a ∈ s.index.map Prod.snd) (hb : b ∈ s.index.map Prod.snd) (k : EKind) :
    s.dag.edges.count ⟨a, b, k⟩ = declared F.E.store k (s.dag.task a) (s.dag.task b) := by
  have ha' := node_index h.inv ha
  have hb' := node_index h.inv hb
  have hinj : ∀ d, mget s.index d = some b → d = s.dag.task b :=
    fun d hd => (index_inv h.inv hd).symm
  rw [count_out, h.out _ _ ha', List.count_append, List.count_append, count_soft hb' hinj,
    count_soft hb' hinj, count_dep hb' hinj]
  cases k <;> simp [declared] <;> omega

theorem Built.wf {F : BFix} (hF : F.OK) {filter : Str} {s : BSt} (h : Built F filter s) :
    s.dag.WF := by
  obtain ⟨new, h1, h2⟩ := h.inv.edges
  constructor
  · rw [h.inv.nodes, List.nodup_append]
    refine ⟨h.inv.nodesNodup, hF.g0nodup, ?_⟩
    rintro x hx y hy rfl
    obtain ⟨e, he, rfl⟩ := List.mem_map.1 hx
    obtain ⟨i, _, hi⟩ := h.inv.nodesAlloc e he
    rw [hi] at hy
    exact hF.allocFresh i hy
  · intro e he
    rw [h1, List.mem_append] at he
    rw [h.inv.nodes, List.mem_append, List.mem_append]
    rcases he with he | he
    · exact ⟨.inl (h2 e he).1, .inl (h2 e he).2⟩
    · exact ⟨.inr (hF.g0wf e he).1, .inr (hF.g0wf e he).2⟩

end Joque
