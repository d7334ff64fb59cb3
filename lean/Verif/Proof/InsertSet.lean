import Verif.Model.InsertSet
import Verif.Spec.Build
import Verif.Proof.Task

namespace Joque

theorem containsStr_iff (hay needle : Str) : containsStr hay needle = true ↔ needle <:+: hay := by
  induction hay with
  | nil => simp [containsStr]
  | cons c cs ih =>
    simp only [containsStr, Bool.or_eq_true, ih, List.infix_cons_iff, List.isPrefixOf_iff_prefix]

theorem mget_some_mem {α : Type} {l : List (TaskId × α)} {t : TaskId} {v : α}
    (h : mget l t = some v) : (t, v) ∈ l := by
  induction l with
  | nil => cases h
  | cons e l ih =>
    simp only [mget] at h
    split at h
    · rename_i he; cases h; rw [← he]; simp
    · exact List.mem_cons_of_mem _ (ih h)

theorem mget_isSome {α : Type} {l : List (TaskId × α)} {t : TaskId} :
    (mget l t).isSome ↔ t ∈ l.map Prod.fst := by
  induction l with
  | nil => simp [mget]
  | cons e l ih =>
    simp only [mget, List.map_cons, List.mem_cons]
    split
    · rename_i he; simp [he]
    · rename_i he
      rw [ih]
      constructor
      · exact .inr
      · rintro (h | h)
        · exact absurd h.symm he
        · exact h

theorem mget_none {α : Type} {l : List (TaskId × α)} {t : TaskId} :
    mget l t = none ↔ t ∉ l.map Prod.fst := by
  rw [← mget_isSome, Option.isSome_iff_ne_none]; simp

theorem mget_of_mem {α : Type} {l : List (TaskId × α)} {t : TaskId} {v : α}
    (hnd : (l.map Prod.fst).Nodup) (h : (t, v) ∈ l) : mget l t = some v := by
  induction l with
  | nil => cases h
  | cons e l ih =>
    rw [List.map_cons, List.nodup_cons] at hnd
    simp only [mget]
    rcases List.mem_cons.1 h with rfl | h
    · simp
    · have : e.1 ≠ t := by
        rintro rfl
        exact hnd.1 (List.mem_map.2 ⟨_, h, rfl⟩)
      rw [if_neg this]
      exact ih hnd.2 h

/-- edges for a list of processed dependencies, newest first -/
def depEdges (lk : TaskId → Option Node) (a : Node) (done : List TaskId) : List Edge :=
  done.reverse.flatMap fun d => match lk d with
    | some b => [⟨a, b, .invalidatedBy⟩, ⟨a, b, .requires⟩, ⟨a, b, .after⟩]
    | none => []

theorem depEdges_snoc {lk : TaskId → Option Node} {a : Node} {done : List TaskId} {d : TaskId}
    {b : Node} (h : lk d = some b) : depEdges lk a (done ++ [d]) =
      ⟨a, b, .invalidatedBy⟩ :: ⟨a, b, .requires⟩ :: ⟨a, b, .after⟩ :: depEdges lk a done := by
  simp [depEdges, h]

theorem depEdges_congr {lk lk' : TaskId → Option Node} {a : Node} {done : List TaskId}
    (h : ∀ d ∈ done, lk d = lk' d) : depEdges lk a done = depEdges lk' a done := by
  unfold depEdges
  rw [List.flatMap_def, List.flatMap_def]
  congr 1
  apply List.map_congr_left
  intro d hd
  rw [h d (by simpa using hd)]

/-- the fixed data of a run of `insert_set` -/
structure BFix where
  E : BEnv
  g0 : Dag
  tmp0 : List (TaskId × Str)
  univ : List TaskId

structure BFix.OK (F : BFix) : Prop where
  allocInj : ∀ i j, F.E.alloc i = F.E.alloc j → i = j
  allocFresh : ∀ i, F.E.alloc i ∉ F.g0.nodes
  g0wf : ∀ e ∈ F.g0.edges, e.src ∈ F.g0.nodes ∧ e.tgt ∈ F.g0.nodes
  g0nodup : F.g0.nodes.Nodup
  closed : ∀ t ∈ F.univ, ∀ d ∈ (F.E.store t).dependsOn, d ∈ F.univ
  keys : ∀ t ∈ F.tmp0.map Prod.fst, t ∈ F.univ

/-- invariant of the building state -/
structure BInv (F : BFix) (s : BSt) : Prop where
  keysNodup : (s.index.map Prod.fst).Nodup
  univ : ∀ t ∈ s.index.map Prod.fst, t ∈ F.univ
  nodesAlloc : ∀ e ∈ s.index, ∃ i < s.index.length, e.2 = F.E.alloc i
  nodesNodup : (s.index.map Prod.snd).Nodup
  nodes : s.dag.nodes = s.index.map Prod.snd ++ F.g0.nodes
  data : ∀ e ∈ s.index, s.dag.task e.2 = e.1 ∧ s.dag.name e.2 = (mget F.tmp0 e.1).getD []
  dataOld : ∀ n ∈ F.g0.nodes, s.dag.task n = F.g0.task n ∧ s.dag.name n = F.g0.name n
  tmpOld : ∀ t n, mget F.tmp0 t = some n → mget s.tmp t = some n
  tmpNew : ∀ t ∈ s.tmp.map Prod.fst, t ∈ F.tmp0.map Prod.fst ∨
    (t ∈ s.index.map Prod.fst ∧ mget s.tmp t = some [])
  ext : ∀ t ∈ s.index.map Prod.fst, t ∉ F.tmp0.map Prod.fst → ∃ k, F.E.rehash k = false
  edges : ∃ new, s.dag.edges = new ++ F.g0.edges ∧
    ∀ e ∈ new, e.src ∈ s.index.map Prod.snd ∧ e.tgt ∈ s.index.map Prod.snd

theorem BInv.fresh {F : BFix} (hF : F.OK) {s : BSt} (h : BInv F s) :
    F.E.alloc s.index.length ∉ s.dag.nodes := by
  rw [h.nodes, List.mem_append]
  rintro (h1 | h1)
  · obtain ⟨e, he, hn⟩ := List.mem_map.1 h1
    obtain ⟨i, hi, h2⟩ := h.nodesAlloc e he
    rw [hn] at h2
    have := hF.allocInj _ _ h2
    omega
  · exact hF.allocFresh _ h1

/-- number of tasks without a node -/
def missing (F : BFix) (s : BSt) : Nat := (F.univ.filter (fun u => (mget s.index u).isNone)).length

/-- `s'` comes after `s` -/
structure BExt (s s' : BSt) : Prop where
  index : ∀ t a, mget s.index t = some a → mget s'.index t = some a
  nodes : ∀ a ∈ s.dag.nodes, a ∈ s'.dag.nodes

theorem BExt.refl (s : BSt) : BExt s s := ⟨fun _ _ h => h, fun _ h => h⟩

theorem BExt.trans {a b c : BSt} (h1 : BExt a b) (h2 : BExt b c) : BExt a c :=
  ⟨fun t x h => h2.index t x (h1.index t x h), fun x h => h2.nodes x (h1.nodes x h)⟩

theorem missing_le (F : BFix) {s s' : BSt} (h : BExt s s') : missing F s' ≤ missing F s := by
  unfold missing
  rw [← List.countP_eq_length_filter, ← List.countP_eq_length_filter]
  apply List.countP_mono_left
  intro u _ hu
  cases h1 : mget s.index u with
  | none => rfl
  | some a => rw [h.index u a h1] at hu; cases hu

/-- a task is complete: its dependencies have nodes, and the edges to them are there and nothing
else -/
def Complete (F : BFix) (s : BSt) (t : TaskId) : Prop :=
  ∃ a, mget s.index t = some a ∧ (∀ d ∈ (F.E.store t).dependsOn, (mget s.index d).isSome) ∧
    s.dag.outEdges a = depEdges (mget s.index) a (F.E.store t).dependsOn

/-- what a call of `dfs(t)` achieves -/
structure BPost (F : BFix) (t : TaskId) (s s' : BSt) : Prop where
  inv : BInv F s'
  ext : BExt s s'
  found : (mget s'.index t).isSome
  reach : ∀ u, (mget s'.index u).isSome → (mget s.index u).isNone →
    Relation.ReflTransGen (DependsOn F.E.store) t u
  complete : ∀ u, (mget s'.index u).isSome → (mget s.index u).isNone → Complete F s' u
  old : ∀ a ∈ s.dag.nodes, s'.dag.outEdges a = s.dag.outEdges a

/-- an external dependency meets a rehash -/
def Unsafe (F : BFix) : Prop :=
  (∃ u ∈ F.univ, u ∉ F.tmp0.map Prod.fst) ∧ ∃ k, F.E.rehash k = true

def BSpec (F : BFix) (t : TaskId) (s : BSt) : BOut → Prop
  | .ok s' => BPost F t s s'
  | .ub => Unsafe F
  | .outOfFuel => False

theorem outEdges_addEdge (g : Dag) (a b : Node) (k : EKind) (n : Node) :
    (g.addEdge a b k).outEdges n = if a = n then ⟨a, b, k⟩ :: g.outEdges n else g.outEdges n := by
  unfold Dag.addEdge Dag.outEdges
  simp only [List.filter_cons]
  by_cases h : a = n <;> simp [h]

theorem addEdge_inv {F : BFix} {s : BSt} (h : BInv F s) {t d : TaskId} {a b : Node}
    (ha : mget s.index t = some a) (hb : mget s.index d = some b) (k : EKind) :
    BInv F { s with dag := s.dag.addEdge a b k } := by
  refine ⟨h.keysNodup, h.univ, h.nodesAlloc, h.nodesNodup, h.nodes, h.data, h.dataOld, h.tmpOld,
    h.tmpNew, h.ext, ?_⟩
  obtain ⟨new, h1, h2⟩ := h.edges
  refine ⟨⟨a, b, k⟩ :: new, ?_, ?_⟩
  · simp [Dag.addEdge, h1]
  · intro e he
    rcases List.mem_cons.1 he with rfl | he
    · exact ⟨List.mem_map.2 ⟨_, mget_some_mem ha, rfl⟩, List.mem_map.2 ⟨_, mget_some_mem hb, rfl⟩⟩
    · exact h2 e he

theorem emplace_inv {F : BFix} (hF : F.OK) {s : BSt} (h : BInv F s) {t : TaskId}
    (ht : t ∈ F.univ) (hn : mget s.index t = none) {tmp' : List (TaskId × Str)} {name : Str}
    (h1 : name = (mget F.tmp0 t).getD [])
    (h2 : ∀ x n, mget F.tmp0 x = some n → mget tmp' x = some n)
    (h3 : ∀ x ∈ tmp'.map Prod.fst, x ∈ F.tmp0.map Prod.fst ∨
      ((x = t ∨ x ∈ s.index.map Prod.fst) ∧ mget tmp' x = some []))
    (h4 : t ∉ F.tmp0.map Prod.fst → ∃ k, F.E.rehash k = false) :
    BInv F ({ s with tmp := tmp' }.emplace F.E t name) ∧
    BExt s ({ s with tmp := tmp' }.emplace F.E t name) ∧
    (∀ a ∈ s.dag.nodes, ({ s with tmp := tmp' }.emplace F.E t name).dag.outEdges a = s.dag.outEdges a) ∧
    ({ s with tmp := tmp' }.emplace F.E t name).dag.outEdges (F.E.alloc s.index.length) = [] ∧
    (∀ u, (mget ({ s with tmp := tmp' }.emplace F.E t name).index u).isSome →
      u = t ∨ (mget s.index u).isSome) := by
  have hfr := h.fresh hF
  have hfi : F.E.alloc s.index.length ∉ s.index.map Prod.snd := by
    intro hm; apply hfr; rw [h.nodes]; simp only [List.mem_append]; exact .inl hm
  have hfg : F.E.alloc s.index.length ∉ F.g0.nodes := hF.allocFresh _
  have hkn : t ∉ s.index.map Prod.fst := mget_none.1 hn
  have hne : ∀ e ∈ s.index, e.2 ≠ F.E.alloc s.index.length := by
    rintro e he heq; exact hfi (heq ▸ List.mem_map_of_mem he)
  simp only [BSt.emplace]
  refine ⟨⟨?_, ?_, ?_, ?_, ?_, ?_, ?_, h2, ?_, ?_, ?_⟩, ⟨?_, ?_⟩, ?_, ?_, ?_⟩
  · rw [List.map_cons, List.nodup_cons]; exact ⟨hkn, h.keysNodup⟩
  · intro x hx
    rw [List.map_cons, List.mem_cons] at hx
    rcases hx with rfl | hx
    · exact ht
    · exact h.univ x hx
  · intro e he
    rcases List.mem_cons.1 he with rfl | he
    · exact ⟨s.index.length, by simp, rfl⟩
    · obtain ⟨i, hi, h5⟩ := h.nodesAlloc e he
      exact ⟨i, by simp only [List.length_cons]; omega, h5⟩
  · rw [List.map_cons, List.nodup_cons]; exact ⟨hfi, h.nodesNodup⟩
  · simp [Dag.emplace, h.nodes]
  · intro e he
    rcases List.mem_cons.1 he with rfl | he
    · simp [Dag.emplace, h1]
    · have := h.data e he
      simp only [Dag.emplace, if_neg (hne e he)]
      exact this
  · intro n hn
    have : n ≠ F.E.alloc s.index.length := fun h5 => hfg (h5 ▸ hn)
    simp only [Dag.emplace, if_neg this]
    exact h.dataOld n hn
  · intro x hx
    rcases h3 x hx with h5 | ⟨h5 | h5, h6⟩
    · exact .inl h5
    · exact .inr ⟨by simp [h5], h6⟩
    · exact .inr ⟨by rw [List.map_cons, List.mem_cons]; exact .inr h5, h6⟩
  · intro x hx hx2
    rw [List.map_cons, List.mem_cons] at hx
    rcases hx with rfl | hx
    · exact h4 hx2
    · exact h.ext x hx hx2
  · obtain ⟨new, h5, h6⟩ := h.edges
    refine ⟨new, by simp [Dag.emplace, h5], fun e he => ?_⟩
    rw [List.map_cons, List.mem_cons, List.mem_cons]
    exact ⟨.inr (h6 e he).1, .inr (h6 e he).2⟩
  · intro x a hx
    simp only [mget]
    rw [if_neg (by rintro rfl; rw [hn] at hx; cases hx)]
    exact hx
  · intro a ha; simp [Dag.emplace, ha]
  · intro a ha; rfl
  · show List.filter _ s.dag.edges = []
    rw [List.filter_eq_nil_iff]
    intro e he
    obtain ⟨new, h5, h6⟩ := h.edges
    rw [h5, List.mem_append] at he
    simp only [decide_eq_true_eq]
    rintro h7
    rcases he with he | he
    · exact hfi (h7 ▸ (h6 e he).1)
    · exact hfg (h7 ▸ (hF.g0wf e he).1)
  · intro u hu
    simp only [mget] at hu
    split at hu
    · rename_i h5; exact .inl h5.symm
    · exact .inr hu

theorem depsLoop_spec {F : BFix} (hF : F.OK) {t : TaskId} {rec : TaskId → BSt → BOut} {m : Nat}
    (hrec : ∀ d s, d ∈ F.univ → BInv F s → missing F s ≤ m → BSpec F d s (rec d s))
    {a : Node} (s0 : BSt) :
    ∀ (ds done : List TaskId) (s : BSt), (E1 : (F.E.store t).dependsOn = done ++ ds) →
      t ∈ F.univ → BInv F s → BExt s0 s → missing F s ≤ m → mget s.index t = some a →
      a ∉ s0.dag.nodes → mget s0.index t = none →
      (∀ u, (mget s.index u).isSome → (mget s0.index u).isNone →
        Relation.ReflTransGen (DependsOn F.E.store) t u) →
      (∀ u, (mget s.index u).isSome → (mget s0.index u).isNone → u ≠ t → Complete F s u) →
      (∀ x ∈ s0.dag.nodes, s.dag.outEdges x = s0.dag.outEdges x) →
      (∀ d ∈ done, (mget s.index d).isSome) →
      s.dag.outEdges a = depEdges (mget s.index) a done →
      BSpec F t s0 (depsLoop rec t ds s) := by
  intro ds
  induction ds with
  | nil =>
    intro done s he ht hI hX hm ha hna hn0 hre hco hol hdn hed
    rw [List.append_nil] at he
    simp only [depsLoop, BSpec]
    refine ⟨hI, hX, by rw [ha]; rfl, hre, ?_, hol⟩
    intro u hu hu0
    by_cases h : u = t
    · subst h; exact ⟨a, ha, by rw [he]; exact hdn, by rw [he]; exact hed⟩
    · exact hco u hu hu0 h
  | cons d ds ih =>
    intro done s he ht hI hX hm ha hna hn0 hre hco hol hdn hed
    have hdmem : d ∈ (F.E.store t).dependsOn := by rw [he]; simp
    have hd : d ∈ F.univ := hF.closed t ht d hdmem
    simp only [depsLoop]
    have hR := hrec d s hd hI hm
    revert hR
    cases rec d s with
    | ub => intro h; exact h
    | outOfFuel => intro h; exact h
    | ok s1 =>
      intro hP
      have hP : BPost F d s s1 := hP
      have ha1 := hP.ext.index t a ha
      have han : a ∈ s.dag.nodes := by
        rw [hI.nodes, List.mem_append]
        exact .inl (List.mem_map.2 ⟨_, mget_some_mem ha, rfl⟩)
      obtain ⟨b, hb⟩ := Option.isSome_iff_exists.1 hP.found
      have hadd : s1.addDep t d = some { s1 with dag :=
          (((s1.dag.addEdge a b .after).addEdge a b .requires).addEdge a b .invalidatedBy) } := by
        simp [BSt.addDep, BSt.addEdge, ha1, hb]
      simp only [hadd]
      have hI1 := addEdge_inv hP.inv ha1 hb .after
      have hI2 := addEdge_inv hI1 (t := t) (d := d) ha1 hb .requires
      have hI3 := addEdge_inv hI2 (t := t) (d := d) ha1 hb .invalidatedBy
      have hout : ∀ x, (((s1.dag.addEdge a b .after).addEdge a b .requires).addEdge a b
          .invalidatedBy).outEdges x = if a = x then
            ⟨a, b, .invalidatedBy⟩ :: ⟨a, b, .requires⟩ :: ⟨a, b, .after⟩ :: s1.dag.outEdges x
          else s1.dag.outEdges x := by
        intro x
        rw [outEdges_addEdge, outEdges_addEdge, outEdges_addEdge]
        by_cases h : a = x <;> simp [h]
      have hX1 : BExt s0 { s1 with dag :=
          (((s1.dag.addEdge a b .after).addEdge a b .requires).addEdge a b .invalidatedBy) } :=
        ⟨fun x y h => hP.ext.index x y (hX.index x y h), fun x h => hP.ext.nodes x (hX.nodes x h)⟩
      refine ih (done ++ [d]) _ (by rw [he]; simp) ht hI3 hX1 ?_ ha1 hna hn0 ?_ ?_ ?_ ?_ ?_
      · exact Nat.le_trans (missing_le F (s := s) (s' := s1) hP.ext) hm
      · intro u hu hu0
        by_cases h : (mget s.index u).isSome
        · exact hre u h hu0
        · have h1 := hP.reach u hu (by simpa using h)
          exact Relation.ReflTransGen.head hdmem h1
      · intro u hu hu0 hut
        have hc : Complete F s1 u := by
          by_cases h : (mget s.index u).isSome
          · obtain ⟨x, h1, h2, h3⟩ := hco u h hu0 hut
            have hxn : x ∈ s.dag.nodes := by
              rw [hI.nodes, List.mem_append]
              exact .inl (List.mem_map.2 ⟨_, mget_some_mem h1, rfl⟩)
            refine ⟨x, hP.ext.index u x h1, fun y hy => ?_, ?_⟩
            · obtain ⟨z, hz⟩ := Option.isSome_iff_exists.1 (h2 y hy)
              rw [hP.ext.index y z hz]; rfl
            · rw [hP.old x hxn, h3]
              apply depEdges_congr
              intro y hy
              obtain ⟨z, hz⟩ := Option.isSome_iff_exists.1 (h2 y hy)
              rw [hP.ext.index y z hz, hz]
          · exact hP.complete u hu (by simpa using h)
        obtain ⟨x, h1, h2, h3⟩ := hc
        have hxa : a ≠ x := by
          rintro rfl
          -- two tasks with the same node
          have e1 := (hP.inv.data _ (mget_some_mem h1)).1
          have e2 := (hP.inv.data _ (mget_some_mem ha1)).1
          exact hut (e1.symm.trans e2)
        exact ⟨x, h1, h2, by simp only [hout, if_neg hxa]; exact h3⟩
      · intro x hx
        have hxa : a ≠ x := by rintro rfl; exact hna hx
        simp only [hout, if_neg hxa]
        rw [hP.old x (hX.nodes x hx)]
        exact hol x hx
      · intro y hy
        rcases List.mem_append.1 hy with hy | hy
        · obtain ⟨z, hz⟩ := Option.isSome_iff_exists.1 (hdn y hy)
          simp only [hP.ext.index y z hz]; rfl
        · simp only [List.mem_singleton] at hy; subst hy; simp only [hb]; rfl
      · simp only [hout, if_true]
        rw [depEdges_snoc hb, hP.old a han, hed]
        congr 3
        apply depEdges_congr
        intro y hy
        obtain ⟨z, hz⟩ := Option.isSome_iff_exists.1 (hdn y hy)
        rw [hP.ext.index y z hz, hz]

theorem missing_lt {F : BFix} {s s' : BSt} (h : BExt s s') {t : TaskId} (ht : t ∈ F.univ)
    (h1 : mget s.index t = none) (h2 : (mget s'.index t).isSome) :
    missing F s' < missing F s := by
  unfold missing
  have key : ∀ l : List TaskId, t ∈ l →
      (l.filter (fun u => (mget s'.index u).isNone)).length <
      (l.filter (fun u => (mget s.index u).isNone)).length := by
    have mono : ∀ l : List TaskId, (l.filter (fun u => (mget s'.index u).isNone)).length ≤
      (l.filter (fun u => (mget s.index u).isNone)).length := by
      intro l
      rw [← List.countP_eq_length_filter, ← List.countP_eq_length_filter]
      apply List.countP_mono_left
      intro u _ hu
      cases h1 : mget s.index u with
      | none => rfl
      | some a => rw [h.index u a h1] at hu; cases hu
    intro l
    induction l with
    | nil => simp
    | cons x l ih =>
      intro hx
      by_cases hxt : x = t
      · subst hxt
        have h2' : (mget s'.index x).isNone = false := by
          rw [Option.isNone_eq_false_iff]; exact h2
        simp only [List.filter_cons, h1, h2', Option.isNone_none, if_true, List.length_cons]
        have := mono l
        simp only [Bool.false_eq_true, if_false]
        omega
      · have hx' : t ∈ l := by
          rcases List.mem_cons.1 hx with h | h
          · exact absurd h.symm hxt
          · exact h
        have := ih hx'
        simp only [List.filter_cons]
        cases h3 : mget s.index x with
        | none =>
          cases h4 : mget s'.index x <;> simp <;> omega
        | some a =>
          rw [h.index x a h3]; simpa using this
  exact key F.univ ht

theorem bdfs_spec {F : BFix} (hF : F.OK) : ∀ (fuel : Nat) (t : TaskId) (s : BSt), t ∈ F.univ →
    BInv F s → missing F s < fuel → BSpec F t s (bdfs F.E fuel t s) := by
  intro fuel
  induction fuel with
  | zero => intro t s _ _ h; omega
  | succ fuel ih =>
    intro t s ht hI hm
    unfold bdfs
    cases hx : mget s.index t with
    | some a =>
      exact ⟨hI, BExt.refl s, by rw [hx]; rfl,
        fun u h1 h2 => by cases h : mget s.index u <;> simp [h] at h1 h2,
        fun u h1 h2 => by cases h : mget s.index u <;> simp [h] at h1 h2, fun _ _ => rfl⟩
    | none =>
      simp only
      -- the common part
      have main : ∀ (tmp' : List (TaskId × Str)) (name : Str),
          name = (mget F.tmp0 t).getD [] →
          (∀ x n, mget F.tmp0 x = some n → mget tmp' x = some n) →
          (∀ x ∈ tmp'.map Prod.fst, x ∈ F.tmp0.map Prod.fst ∨
            ((x = t ∨ x ∈ s.index.map Prod.fst) ∧ mget tmp' x = some [])) →
          (t ∉ F.tmp0.map Prod.fst → ∃ k, F.E.rehash k = false) →
          BSpec F t s (depsLoop (bdfs F.E fuel) t (F.E.store t).dependsOn
            ({ s with tmp := tmp' }.emplace F.E t name)) := by
        intro tmp' name h1 h2 h3 h4
        obtain ⟨e1, e2, e3, e4, e5⟩ := emplace_inv hF hI ht hx h1 h2 h3 h4
        have hself : mget ({ s with tmp := tmp' }.emplace F.E t name).index t =
            some (F.E.alloc s.index.length) := by simp [BSt.emplace, mget]
        have hlt := missing_lt e2 ht hx (by rw [hself]; rfl)
        refine depsLoop_spec hF (m := missing F ({ s with tmp := tmp' }.emplace F.E t name))
          (fun d s' hd hI' hm' => ih d s' hd hI' (by omega)) s _ [] _ rfl ht e1 e2
          (Nat.le_refl _) hself (hI.fresh hF) hx ?_ ?_ e3 (by simp) ?_
        · intro u hu hu0
          rcases e5 u hu with rfl | h
          · exact .refl
          · rw [Option.isNone_iff_eq_none.1 hu0] at h; cases h
        · intro u hu hu0 hut
          rcases e5 u hu with h | h
          · exact absurd h hut
          · rw [Option.isNone_iff_eq_none.1 hu0] at h; cases h
        · rw [e4]; rfl
      cases hy : mget s.tmp t with
      | some name =>
        simp only
        have hname : name = (mget F.tmp0 t).getD [] := by
          cases h0 : mget F.tmp0 t with
          | some n => have := hI.tmpOld t n h0; rw [hy] at this; cases this; rfl
          | none =>
            rcases hI.tmpNew t (mget_isSome.1 (by rw [hy]; rfl)) with h | ⟨h, h'⟩
            · rw [← mget_isSome, h0] at h; cases h
            · rw [hy] at h'; cases h'; rfl
        have hin : t ∈ F.tmp0.map Prod.fst := by
          rcases hI.tmpNew t (mget_isSome.1 (by rw [hy]; rfl)) with h | ⟨h, h'⟩
          · exact h
          · rw [← mget_isSome, hx] at h; cases h
        exact main s.tmp name hname hI.tmpOld
          (fun x h => (hI.tmpNew x h).imp id (fun ⟨a, b⟩ => ⟨.inr a, b⟩))
          (fun h => absurd hin h)
      | none =>
        simp only
        have h0 : mget F.tmp0 t = none := by
          cases h0 : mget F.tmp0 t with
          | some n => have := hI.tmpOld t n h0; rw [hy] at this; cases this
          | none => rfl
        split
        · rename_i hrh
          exact ⟨⟨t, ht, mget_none.1 h0⟩, ⟨_, hrh⟩⟩
        · rename_i hrh
          refine main _ [] (by rw [h0]; rfl) ?_ ?_ (fun _ => ⟨s.tmp.length, by simpa using hrh⟩)
          · intro x n hxn
            have hne : t ≠ x := by rintro rfl; rw [h0] at hxn; cases hxn
            simp only [mget, if_neg hne]
            exact hI.tmpOld x n hxn
          · intro x hxx
            rw [List.map_cons, List.mem_cons] at hxx
            by_cases hxt : x = t
            · subst hxt; exact .inr ⟨.inl rfl, by simp [mget]⟩
            · rcases hxx with h | h
              · exact absurd h hxt
              · refine (hI.tmpNew x h).imp id (fun ⟨a, b⟩ => ⟨.inr a, ?_⟩)
                simp only [mget, if_neg (Ne.symm hxt)]; exact b

end Joque
