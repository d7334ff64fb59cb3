import Verif.Proof.Order
import Verif.Spec.SeqOrder
import Mathlib.Logic.Equiv.Basic

/-! # Placing the nodes of a dag elsewhere -/

namespace Joque

variable {σ : Equiv.Perm Node}

/-- the same dag, the node at `n` placed at `σ n` -/
def Dag.rename (σ : Equiv.Perm Node) (g : Dag) : Dag :=
  { nodes := g.nodes.map σ
    edges := g.edges.map fun e => ⟨σ e.src, σ e.tgt, e.kind⟩
    name := fun n => g.name (σ.symm n)
    task := fun n => g.task (σ.symm n) }

def BSt.rename (σ : Equiv.Perm Node) (s : BSt) : BSt :=
  { dag := s.dag.rename σ, tmp := s.tmp, index := s.index.map fun p => (p.1, σ p.2) }

def BOut.rename (σ : Equiv.Perm Node) : BOut → BOut
  | .ok s => .ok (s.rename σ)
  | .ub => .ub
  | .outOfFuel => .outOfFuel

theorem mget_map {α β : Type} (f : α → β) (l : List (TaskId × α)) (t : TaskId) :
    mget (l.map fun p => (p.1, f p.2)) t = (mget l t).map f := by
  induction l with
  | nil => rfl
  | cons p l ih =>
    obtain ⟨k, v⟩ := p
    simp only [List.map_cons, mget]
    split
    · rfl
    · exact ih

theorem Dag.emplace_rename (g : Dag) (a : Node) (name : Str) (t : TaskId) :
    (g.emplace a name t).rename σ = (g.rename σ).emplace (σ a) name t := by
  have h : ∀ n, σ.symm n = a ↔ n = σ a := fun n => Equiv.symm_apply_eq σ
  simp only [Dag.emplace, Dag.rename, List.map_cons, h]

theorem Dag.addEdge_rename (g : Dag) (a b : Node) (k : EKind) :
    (g.addEdge a b k).rename σ = (g.rename σ).addEdge (σ a) (σ b) k := rfl

theorem BSt.addEdge_rename (s : BSt) (t d : TaskId) (k : EKind) :
    (s.rename σ).addEdge t d k = (s.addEdge t d k).map (BSt.rename σ) := by
  have e : ∀ t, mget (s.rename σ).index t = (mget s.index t).map σ := fun t => mget_map σ s.index t
  unfold BSt.addEdge
  rw [e, e]
  cases mget s.index t <;> cases mget s.index d <;> rfl

theorem BSt.addDep_rename (s : BSt) (t d : TaskId) :
    (s.rename σ).addDep t d = (s.addDep t d).map (BSt.rename σ) := by
  unfold BSt.addDep
  rw [BSt.addEdge_rename]
  cases s.addEdge t d .after with
  | none => rfl
  | some s =>
    simp only [Option.map_some, Option.bind_some]
    rw [BSt.addEdge_rename]
    cases s.addEdge t d .requires with
    | none => rfl
    | some s =>
      simp only [Option.map_some, Option.bind_some]
      exact BSt.addEdge_rename s t d .invalidatedBy

/-- the environment in which new nodes are placed elsewhere -/
def BEnv.rename (σ : Equiv.Perm Node) (E : BEnv) : BEnv := { E with alloc := fun k => σ (E.alloc k) }

theorem depsLoop_rename {rec rec' : TaskId → BSt → BOut} (h : ∀ d s, rec' d (s.rename σ) = (rec d s).rename σ)
    (t : TaskId) (ds : List TaskId) : ∀ s : BSt,
    depsLoop rec' t ds (s.rename σ) = (depsLoop rec t ds s).rename σ := by
  induction ds with
  | nil => intro s; rfl
  | cons d ds ih =>
    intro s
    simp only [depsLoop]
    rw [h]
    cases rec d s with
    | ok s =>
      simp only [BOut.rename]
      rw [BSt.addDep_rename]
      cases s.addDep t d with
      | none => rfl
      | some s => exact ih s
    | ub => rfl
    | outOfFuel => rfl

theorem BSt.emplace_rename (E : BEnv) (s : BSt) (t : TaskId) (name : Str) :
    (s.rename σ).emplace (E.rename σ) t name = (s.emplace E t name).rename σ := by
  simp only [BSt.emplace, BSt.rename, BEnv.rename, List.length_map, Dag.emplace_rename, List.map_cons]

theorem bdfs_rename (E : BEnv) (fuel : Nat) : ∀ (t : TaskId) (s : BSt),
    bdfs (E.rename σ) fuel t (s.rename σ) = (bdfs E fuel t s).rename σ := by
  induction fuel with
  | zero => intro t s; rfl
  | succ fuel ih =>
    intro t s
    have e : mget (s.rename σ).index t = (mget s.index t).map σ := mget_map σ s.index t
    unfold bdfs
    rw [e]
    cases mget s.index t with
    | some a => rfl
    | none =>
      show (match mget s.tmp t with
        | some name => _
        | none => _) = _
      cases mget s.tmp t with
      | some name =>
        simp only
        rw [BSt.emplace_rename]
        exact depsLoop_rename ih t _ _
      | none =>
        simp only
        show (if E.rehash s.tmp.length then _ else _) = _
        split
        · rfl
        · exact depsLoop_rename ih t _ _ ▸ congrArg _ (BSt.emplace_rename E { s with tmp := (t, []) :: s.tmp } t [])

theorem tmpLoop_rename (E : BEnv) (fuel : Nat) (filter : Str) (l : List TaskId) :
    ∀ s : BSt, tmpLoop (E.rename σ) fuel filter l (s.rename σ) = (tmpLoop E fuel filter l s).rename σ := by
  induction l with
  | nil => intro s; rfl
  | cons t l ih =>
    intro s
    have e : mget (s.rename σ).tmp t = mget s.tmp t := rfl
    simp only [tmpLoop]
    rw [e, bdfs_rename]
    cases mget s.tmp t with
    | none => exact ih s
    | some n =>
      simp only
      split
      · cases bdfs E fuel t s with
        | ok s => exact ih s
        | ub => rfl
        | outOfFuel => rfl
      · exact ih s

theorem addSoft_rename (n : Node) (k : EKind) (ds : List TaskId) : ∀ s : BSt,
    addSoft (s.rename σ) (σ n) k ds = (addSoft s n k ds).rename σ := by
  induction ds with
  | nil => intro s; rfl
  | cons d ds ih =>
    intro s
    have e : mget (s.rename σ).index d = (mget s.index d).map σ := mget_map σ s.index d
    simp only [addSoft]
    rw [e]
    cases mget s.index d with
    | none => exact ih s
    | some b => exact ih { s with dag := s.dag.addEdge n b k }

theorem indexLoop_rename (E : BEnv) (l : List TaskId) : ∀ s : BSt,
    indexLoop (E.rename σ) l (s.rename σ) = (indexLoop E l s).rename σ := by
  induction l with
  | nil => intro s; rfl
  | cons t l ih =>
    intro s
    have e : mget (s.rename σ).index t = (mget s.index t).map σ := mget_map σ s.index t
    simp only [indexLoop]
    rw [e]
    cases mget s.index t with
    | none => exact ih s
    | some n =>
      simp only [Option.map_some]
      rw [show (E.rename σ).store = E.store from rfl, addSoft_rename, addSoft_rename]
      exact ih _

/-- `insert_set` builds the same dag wherever its nodes are placed -/
theorem insertSet_rename (E : BEnv) (fuel : Nat) (g : Dag) (ts : TaskSet) (filter : Str)
    (visit : List TaskId) (order : List TaskId → List TaskId) :
    insertSet (E.rename σ) fuel (g.rename σ) ts filter visit order =
      (insertSet E fuel g ts filter visit order).rename σ := by
  simp only [insertSet]
  have h := tmpLoop_rename (σ := σ) E fuel filter visit
    { dag := g, tmp := (forEachTask ts).map (fun e => (e.2, e.1)), index := [] }
  have e : BSt.rename σ { dag := g, tmp := (forEachTask ts).map (fun e => (e.2, e.1)), index := [] } =
      { dag := g.rename σ, tmp := (forEachTask ts).map (fun e => (e.2, e.1)), index := [] } := rfl
  rw [e] at h
  rw [h]
  cases tmpLoop E fuel filter visit
    { dag := g, tmp := (forEachTask ts).map (fun e => (e.2, e.1)), index := [] } with
  | ok s =>
    simp only [BOut.rename]
    have e : (s.rename σ).index.map Prod.fst = s.index.map Prod.fst := by
      simp [BSt.rename, List.map_map, Function.comp_def]
    rw [e, indexLoop_rename]
  | ub => rfl
  | outOfFuel => rfl

theorem after_rename {g : Dag} {x y : Node} :
    AfterEdge (g.rename σ) (σ x) (σ y) ↔ AfterEdge g x y := by
  unfold AfterEdge HasEdge Dag.rename
  simp only [List.mem_map]
  constructor
  · rintro ⟨⟨a, b, k⟩, he, h⟩
    simp only [Edge.mk.injEq, EmbeddingLike.apply_eq_iff_eq] at h
    obtain ⟨rfl, rfl, rfl⟩ := h
    exact he
  · intro h
    exact ⟨_, h, rfl⟩

theorem after_rename' {g : Dag} {x y : Node} :
    AfterEdge (g.rename σ) x y ↔ AfterEdge g (σ.symm x) (σ.symm y) := by
  have h := after_rename (σ := σ) (g := g) (x := σ.symm x) (y := σ.symm y)
  rwa [Equiv.apply_symm_apply, Equiv.apply_symm_apply] at h

theorem trans_rename {g : Dag} {x y : Node}
    (h : Relation.TransGen (AfterEdge (g.rename σ)) x y) : Relation.TransGen (AfterEdge g) (σ.symm x) (σ.symm y) := by
  induction h with
  | single h => exact .single (after_rename'.1 h)
  | tail _ h ih => exact .tail ih (after_rename'.1 h)

/-- some placement of the nodes brings a list of nodes to given places -/
theorem exists_perm : ∀ {N S : List Node}, N.Nodup → S.Nodup → N.length = S.length →
    ∃ σ : Equiv.Perm Node, N.map σ = S
  | [], [], _, _, _ => ⟨Equiv.refl _, rfl⟩
  | a :: N, b :: S, hN, hS, hl => by
    obtain ⟨σ, h⟩ := exists_perm (List.nodup_cons.1 hN).2 (List.nodup_cons.1 hS).2 (by simpa using hl)
    refine ⟨σ.trans (Equiv.swap (σ a) b), ?_⟩
    rw [List.map_cons, ← h, Equiv.trans_apply, Equiv.swap_apply_left]
    congr 1
    apply List.map_congr_left
    intro x hx
    rw [Equiv.trans_apply]
    apply Equiv.swap_apply_of_ne_of_ne
    · intro e
      exact (List.nodup_cons.1 hN).1 (σ.injective e ▸ hx)
    · intro e
      refine (List.nodup_cons.1 hS).1 ?_
      rw [← h, ← e]
      exact List.mem_map_of_mem hx

/-- a depth-first search that starts from a topological order finds this order -/
theorem startOrder_topo {g : Dag} {roots : List Node} (hnd : roots.Nodup) (ht : Topo g roots) :
    startOrder g roots = roots := by
  have hself : ∀ (l acc : List Node) (k : Nat), (∀ m ∈ l, m ∈ acc) →
      l.foldl (fun acc m => depthFirst g k m acc) acc = acc := by
    intro l acc k
    induction l with
    | nil => intro _; rfl
    | cons m l ih =>
      intro h
      have hm : depthFirst g k m acc = acc := by
        cases k with
        | zero => rfl
        | succ k => simp [depthFirst, h m (by simp)]
      rw [List.foldl_cons, hm]
      exact ih fun x hx => h x (List.mem_cons_of_mem _ hx)
  have key : ∀ (l acc : List Node), (acc ++ l).Nodup → Topo g (acc ++ l) →
      l.foldl (fun acc n => depthFirst g (g.nodes.length + 1) n acc) acc = acc ++ l := by
    intro l
    induction l with
    | nil => intro acc _ _; simp
    | cons n l ih =>
      intro acc hnd ht
      have hn : n ∉ acc := fun h => by
        rw [List.nodup_append] at hnd
        exact hnd.2.2 n h n (by simp) rfl
      have h1 : depthFirst g (g.nodes.length + 1) n acc = acc ++ [n] := by
        unfold depthFirst
        rw [if_neg hn, hself _ _ _ fun m hm => ht acc n l rfl m (mem_orderedAfter.1 hm)]
      rw [List.foldl_cons, h1, ih (acc ++ [n]) (by simpa using hnd) (by simpa using ht)]
      simp
  exact key roots [] (by simpa using hnd) (by simpa using ht)

end Joque
