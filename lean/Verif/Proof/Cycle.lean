import Mathlib.Data.List.Chain
import Verif.Model.Cycle
import Verif.Spec.Graph

namespace Joque

theorem mem_filterEdges_out {g : Dag} {k : EKind} {n : Node} {e : Edge} :
    e ∈ filterEdges k (g.outEdges n) ↔ e ∈ g.edges ∧ e.src = n ∧ e.kind = k := by
  simp only [filterEdges, Dag.outEdges, List.mem_filter, decide_eq_true_eq]; tauto

theorem mem_filterEdges_in {g : Dag} {k : EKind} {n : Node} {e : Edge} :
    e ∈ filterEdges k (g.inEdges n) ↔ e ∈ g.edges ∧ e.tgt = n ∧ e.kind = k := by
  simp only [filterEdges, Dag.inEdges, List.mem_filter, decide_eq_true_eq]; tauto

theorem hasEdge_of_mem {g : Dag} {k : EKind} {n : Node} {e : Edge}
    (h : e ∈ filterEdges k (g.outEdges n)) : HasEdge g k n e.tgt := by
  obtain ⟨h1, h2, h3⟩ := mem_filterEdges_out.1 h
  cases e; simp_all [HasEdge]

theorem exists_of_hasEdge {g : Dag} {k : EKind} {n m : Node}
    (h : HasEdge g k n m) : ∃ e ∈ filterEdges k (g.outEdges n), e.tgt = m :=
  ⟨⟨n, m, k⟩, mem_filterEdges_out.2 ⟨h, rfl, rfl⟩, rfl⟩

/-- number of nodes not in `seen` -/
def unseen (g : Dag) (seen : List Node) : Nat := (g.nodes.filter (fun n => n ∉ seen)).length

theorem unseen_mono {g : Dag} {s t : List Node} (h : ∀ x ∈ s, x ∈ t) : unseen g t ≤ unseen g s := by
  unfold unseen
  rw [← List.countP_eq_length_filter, ← List.countP_eq_length_filter]
  apply List.countP_mono_left
  intro x _ hx
  simp only [decide_not, Bool.not_eq_eq_eq_not, Bool.not_true, decide_eq_false_iff_not] at hx ⊢
  exact fun hc => hx (h x hc)

theorem unseen_lt {g : Dag} {s : List Node} {n : Node} (hn : n ∈ g.nodes) (hs : n ∉ s) :
    unseen g (n :: s) < unseen g s := by
  unfold unseen
  have : (g.nodes.filter (fun m => m ∉ n :: s)) =
      (g.nodes.filter (fun m => m ∉ s)).filter (fun m => m ≠ n) := by
    rw [List.filter_filter]
    congr 1
    funext m
    by_cases h1 : m = n <;> by_cases h2 : m ∈ s <;> simp [h1, h2]
  rw [this]
  apply List.length_filter_lt_length_iff_exists.2
  exact ⟨n, by simp [hn, hs], by simp⟩

theorem unseen_le (g : Dag) (s : List Node) : unseen g s ≤ g.nodes.length :=
  List.length_filter_le _ _

/-- state of the DFS between calls -/
structure CInv (g : Dag) (s : CSt) : Prop where
  sub : ∀ x ∈ s.stack, x ∈ s.seen
  nodup : s.stack.Nodup
  inNodes : ∀ x ∈ s.seen, x ∈ g.nodes
  closed : ∀ a ∈ s.seen, a ∉ s.stack → ∀ b, AfterEdge g a b → b ∈ s.seen ∧ b ∉ s.stack
  acyc : ∀ a ∈ s.seen, a ∉ s.stack → ¬ Relation.TransGen (AfterEdge g) a a
  chain : s.stack.IsChain (AfterEdge g)
  noRep : s.reports = []

/-- result of a call that found no cycle -/
structure CNone (g : Dag) (s s' : CSt) (n : Node) : Prop where
  inv : CInv g s'
  stack : s'.stack = s.stack
  mono : ∀ x ∈ s.seen, x ∈ s'.seen
  seen : n ∈ s'.seen
  notStack : n ∉ s'.stack

/-- chain of nodes that closes -/
def ClosedChain (g : Dag) (c : List Node) : Prop :=
  c.Nodup ∧ c.IsChain (AfterEdge g) ∧ ∃ a b, c.head? = some a ∧ c.getLast? = some b ∧ AfterEdge g b a

/-- result of a call that found a cycle through `p` -/
structure CSome (g : Dag) (s s' : CSt) (p : Node) : Prop where
  pending : p ∈ s.stack → s'.reports = [] ∧ (∃ ext, s'.stack = s.stack ++ ext) ∧ s'.stack.Nodup ∧
    s'.stack.IsChain (AfterEdge g) ∧ ∃ b, s'.stack.getLast? = some b ∧ AfterEdge g b p
  reported : p ∉ s.stack → ∃ c, s'.reports = [c] ∧ ClosedChain g c

theorem getCycle_append {stack ext : List Node} {n : Node} (h : n ∉ stack) :
    getCycle (stack ++ n :: ext) n = n :: ext := by
  unfold getCycle
  rw [List.dropWhile_append_of_pos]
  · simp
  · intro a ha; simp; rintro rfl; exact h ha

theorem TransGen_closed {α : Type} {r : α → α → Prop} {P : α → Prop}
    (hc : ∀ a, P a → ∀ b, r a b → P b) {a b : α} (h : Relation.TransGen r a b) (ha : P a) : P b := by
  induction h with
  | single h => exact hc _ ha _ h
  | tail _ h ih => exact hc _ ih _ h

theorem cycleLoop_spec {g : Dag} (hwf : g.WF) {fuel : Nat} {n : Node} {s0 : CSt}
    (hrec : ∀ m s, m ∈ g.nodes → CInv g s → unseen g s.seen < fuel →
      (∀ b, s.stack.getLast? = some b → AfterEdge g b m) →
      ∃ r s', checkForCycle g fuel m s = some (r, s') ∧
        (∀ p, r = some p → CSome g s s' p) ∧ (r = none → CNone g s s' m))
    (hn0 : n ∉ s0.stack) :
    ∀ (es : List Edge) (s : CSt), (∀ e ∈ es, AfterEdge g n e.tgt) →
      CInv g s → unseen g s.seen < fuel → s.stack = s0.stack ++ [n] → (∀ x ∈ s0.seen, x ∈ s.seen) →
      (∀ b, AfterEdge g n b → (b ∈ s.seen ∧ b ∉ s.stack) ∨ ∃ e ∈ es, e.tgt = b) →
      ∃ r s', cycleLoop (checkForCycle g fuel) n es s = some (r, s') ∧
        (∀ p, r = some p → CSome g s0 s' p) ∧ (r = none → CNone g s0 s' n) := by
  intro es
  induction es with
  | nil =>
    intro s _ hI _ hst hmono hall
    refine ⟨none, _, rfl, by simp, fun _ => ?_⟩
    have hnst : n ∈ s.seen := hI.sub n (by simp [hst])
    have hdl : s.stack.dropLast = s0.stack := by simp [hst]
    have hsucc : ∀ b, AfterEdge g n b → b ∈ s.seen ∧ b ∉ s.stack := by
      intro b hb
      rcases hall b hb with h | ⟨e, he, _⟩
      · exact h
      · simp at he
    have hclosed : ∀ a ∈ s.seen, a ∉ s0.stack → ∀ b, AfterEdge g a b →
        b ∈ s.seen ∧ b ∉ s.stack := by
      intro a ha hns b hab
      by_cases han : a = n
      · subst han; exact hsucc b hab
      · exact hI.closed a ha (by simp [hst, hns, han]) b hab
    have hacy : ∀ a ∈ s.seen, a ∉ s0.stack → ¬ Relation.TransGen (AfterEdge g) a a := by
      intro a ha hns hT
      have hlast : a ∈ s.seen ∧ a ∉ s.stack := by
        obtain ⟨c, hc, hca⟩ := Relation.TransGen.head'_iff.1 hT
        have h1 := hclosed a ha hns c hc
        rcases Relation.reflTransGen_iff_eq_or_transGen.1 hca with h | h
        · subst h; exact h1
        · exact TransGen_closed (P := fun x => x ∈ s.seen ∧ x ∉ s.stack)
            (fun x hx b hb => hI.closed x hx.1 hx.2 b hb) h h1
      exact hI.acyc a hlast.1 hlast.2 hT
    constructor
    · constructor
      · intro x hx
        exact hI.sub x (List.dropLast_subset _ hx)
      · simp only [hdl]; have := hI.nodup; rw [hst] at this; exact (List.nodup_append.1 this).1
      · exact hI.inNodes
      · simp only [hdl]
        intro a ha hns b hb
        have := hclosed a ha hns b hb
        refine ⟨this.1, fun h => this.2 (by simp [hst, h])⟩
      · simp only [hdl]; exact hacy
      · simp only [hdl]; have := hI.chain; rw [hst] at this
        exact (List.isChain_append.1 this).1
      · exact hI.noRep
    · exact hdl
    · exact hmono
    · exact hnst
    · simpa [hdl] using hn0
  | cons e es ih =>
    intro s hes hI hfuel hst hmono hall
    have hedge : AfterEdge g n e.tgt := hes e (by simp)
    have hlast : ∀ b, s.stack.getLast? = some b → AfterEdge g b e.tgt := by
      intro b hb
      simp [hst] at hb
      subst hb; exact hedge
    obtain ⟨r, s', hr, hsome, hnone⟩ := hrec e.tgt s (hwf.closed _ hedge).2 hI hfuel hlast
    cases r with
    | none =>
      have hN := hnone rfl
      have := ih s' (fun e' he' => hes e' (by simp [he'])) hN.inv
        (Nat.lt_of_le_of_lt (unseen_mono hN.mono) hfuel) (by rw [hN.stack, hst])
        (fun x hx => hN.mono x (hmono x hx)) (by
          intro b hb
          rcases hall b hb with ⟨h1, h2⟩ | ⟨e', he', hb'⟩
          · exact Or.inl ⟨hN.mono b h1, by rw [hN.stack]; exact h2⟩
          · rcases List.mem_cons.1 he' with h | h
            · subst h; subst hb'; exact Or.inl ⟨hN.seen, hN.notStack⟩
            · exact Or.inr ⟨e', h, hb'⟩)
      obtain ⟨r2, s2, h2, h3, h4⟩ := this
      exact ⟨r2, s2, by simp [cycleLoop, hr, h2], h3, h4⟩
    | some p =>
      have hS := hsome p rfl
      by_cases hpn : p = n
      · subst hpn
        have hp : p ∈ s.stack := by simp [hst]
        obtain ⟨hrep, ⟨ext, hext⟩, hnd, hch, b, hb, hbp⟩ := hS.pending hp
        have hstk : s'.stack = s0.stack ++ p :: ext := by rw [hext, hst]; simp
        have hgc : getCycle s'.stack p = p :: ext := by rw [hstk]; exact getCycle_append hn0
        refine ⟨some p, _, by simp [cycleLoop, hr]; rfl, ?_, by simp⟩
        intro q hq
        simp at hq; subst hq
        constructor
        · intro h; exact absurd h hn0
        · intro _
          refine ⟨p :: ext, by simp [hrep, hgc], ?_, ?_, p, b, rfl, ?_, hbp⟩
          · rw [hstk] at hnd; exact (List.nodup_append.1 hnd).2.1
          · rw [hstk] at hch; exact (List.isChain_append.1 hch).2.1
          · rw [hstk] at hb; rw [List.getLast?_append] at hb; simpa using hb
      · refine ⟨some p, s', by simp [cycleLoop, hr, hpn], ?_, by simp⟩
        intro q hq
        simp at hq; subst hq
        constructor
        · intro h
          obtain ⟨h1, ⟨ext, h2⟩, h3, h4, h5⟩ := hS.pending (by simp [hst, h])
          exact ⟨h1, ⟨n :: ext, by rw [h2, hst]; simp⟩, h3, h4, h5⟩
        · intro h
          exact hS.reported (by simp [hst, h, hpn])

theorem checkForCycle_spec {g : Dag} (hwf : g.WF) (fuel : Nat) :
    ∀ m s, m ∈ g.nodes → CInv g s → unseen g s.seen < fuel →
      (∀ b, s.stack.getLast? = some b → AfterEdge g b m) →
      ∃ r s', checkForCycle g fuel m s = some (r, s') ∧
        (∀ p, r = some p → CSome g s s' p) ∧ (r = none → CNone g s s' m) := by
  induction fuel with
  | zero => intro m s _ _ h; omega
  | succ fuel ih =>
    intro m s hm hI hf hlast
    by_cases hseen : m ∈ s.seen
    · by_cases hst : m ∈ s.stack
      · refine ⟨some m, s, by simp [checkForCycle, hseen, hst], ?_, by simp⟩
        intro p hp
        simp at hp; subst hp
        constructor
        · intro _
          have hne : s.stack ≠ [] := by intro h; rw [h] at hst; simp at hst
          refine ⟨hI.noRep, ⟨[], by simp⟩, hI.nodup, hI.chain, s.stack.getLast hne,
            List.getLast?_eq_some_getLast hne, ?_⟩
          exact hlast _ (List.getLast?_eq_some_getLast hne)
        · intro h; exact absurd hst h
      · refine ⟨none, s, by simp [checkForCycle, hseen, hst], by simp, fun _ => ?_⟩
        exact ⟨hI, rfl, fun _ h => h, hseen, hst⟩
    · have hnst : m ∉ s.stack := fun h => hseen (hI.sub m h)
      have hI1 : CInv g { s with seen := m :: s.seen, stack := s.stack ++ [m] } := by
        constructor
        · intro x hx
          simp at hx ⊢
          rcases hx with h | h
          · exact Or.inr (hI.sub x h)
          · exact Or.inl h
        · simp only
          rw [List.nodup_append]
          refine ⟨hI.nodup, by simp, ?_⟩
          intro a ha b hb
          simp at hb; subst hb
          rintro rfl; exact hnst ha
        · intro x hx
          simp at hx
          rcases hx with h | h
          · subst h; exact hm
          · exact hI.inNodes x h
        · intro a ha hns b hb
          simp at ha hns ⊢
          rcases ha with h | h
          · exact absurd h hns.2
          · have := hI.closed a h hns.1 b hb
            refine ⟨Or.inr this.1, this.2, ?_⟩
            rintro rfl; exact hseen this.1
        · intro a ha hns
          simp at ha hns
          rcases ha with h | h
          · exact absurd h hns.2
          · exact hI.acyc a h hns.1
        · simp only
          rw [List.isChain_append]
          refine ⟨hI.chain, by simp, ?_⟩
          intro x hx y hy
          simp at hy; subst hy
          exact hlast x (by simpa using hx)
        · exact hI.noRep
      obtain ⟨r, s', h1, h2, h3⟩ := cycleLoop_spec (s0 := s) (n := m) hwf ih hnst
        (filterEdges .after (g.outEdges m))
        { s with seen := m :: s.seen, stack := s.stack ++ [m] }
        (fun e he => hasEdge_of_mem he) hI1
        (by have := unseen_lt hm hseen; simp only; omega) rfl
        (by intro x hx; simp [hx]) (fun b hb => Or.inr (exists_of_hasEdge hb))
      exact ⟨r, s', by simp [checkForCycle, hseen, h1], h2, h3⟩

theorem isCycle_of_closedChain {g : Dag} {c : List Node} (h : ClosedChain g c) : IsCycle g c := by
  obtain ⟨hnd, hch, a, b, ha, hb, hab⟩ := h
  have hne : c ≠ [] := by rintro rfl; simp at ha
  refine ⟨List.length_pos_iff.2 hne, hnd, ?_⟩
  intro i hi
  by_cases hlast : i + 1 < c.length
  · have hm : (i + 1) % c.length = i + 1 := Nat.mod_eq_of_lt hlast
    simp only [hm]
    exact List.isChain_iff_getElem.1 hch i hlast
  · have hi' : i = c.length - 1 := by omega
    have hm : (i + 1) % c.length = 0 := by
      have : i + 1 = c.length := by omega
      rw [this]; exact Nat.mod_self _
    simp only [hm]
    have h0 : c[0]'(by omega) = a := by
      rw [List.head?_eq_getElem?] at ha
      exact (List.getElem?_eq_some_iff.1 ha).2
    have h1 : c[i] = b := by
      rw [List.getLast?_eq_getElem?] at hb
      subst hi'
      exact (List.getElem?_eq_some_iff.1 hb).2
    rw [h0, h1]; exact hab

theorem cyclic_of_isCycle {g : Dag} {c : List Node} (h : IsCycle g c) : Cyclic g := by
  obtain ⟨hpos, _, he⟩ := h
  refine ⟨c[0], ?_⟩
  have key : ∀ k (hk : k < c.length), Relation.ReflTransGen (AfterEdge g) c[0] c[k] := by
    intro k
    induction k with
    | zero => intro _; exact .refl
    | succ k ih =>
      intro hk
      have h1 := he k (by omega)
      have hm : (k + 1) % c.length = k + 1 := Nat.mod_eq_of_lt hk
      simp only [hm] at h1
      exact (ih (by omega)).tail h1
  have h2 := key (c.length - 1) (by omega)
  have h3 := he (c.length - 1) (by omega)
  have hm : (c.length - 1 + 1) % c.length = 0 := by
    have : c.length - 1 + 1 = c.length := by omega
    rw [this]; exact Nat.mod_self _
  simp only [hm] at h3
  exact Relation.TransGen.tail' h2 h3

theorem hasCycleLoop_spec {g : Dag} (hwf : g.WF) :
    ∀ (ns : List Node) (s : CSt), (∀ n ∈ ns, n ∈ g.nodes) → CInv g s → s.stack = [] →
      (∃ c, hasCycleLoop g (g.nodes.length + 1) ns s = .result true [c] ∧ IsCycle g c) ∨
      (hasCycleLoop g (g.nodes.length + 1) ns s = .result false [] ∧
        ∀ n, n ∈ ns ∨ n ∈ s.seen → ¬ Relation.TransGen (AfterEdge g) n n) := by
  intro ns
  induction ns with
  | nil =>
    intro s _ hI hst
    refine Or.inr ⟨by simp [hasCycleLoop, hI.noRep], ?_⟩
    intro n hn
    simp at hn
    exact hI.acyc n hn (by simp [hst])
  | cons n ns ih =>
    intro s hns hI hst
    obtain ⟨r, s', h1, h2, h3⟩ := checkForCycle_spec hwf (g.nodes.length + 1) n s (hns n (by simp)) hI
      (Nat.lt_succ_of_le (unseen_le _ _)) (by simp [hst])
    cases r with
    | some p =>
      obtain ⟨c, hc, hcc⟩ := (h2 p rfl).reported (by simp [hst])
      exact Or.inl ⟨c, by simp [hasCycleLoop, hst, h1, hc], isCycle_of_closedChain hcc⟩
    | none =>
      have hN := h3 rfl
      have hst' : s'.stack = [] := by rw [hN.stack, hst]
      rcases ih s' (fun m hm => hns m (by simp [hm])) hN.inv hst' with ⟨c, h4, h5⟩ | ⟨h4, h5⟩
      · exact Or.inl ⟨c, by simp [hasCycleLoop, hst, h1, h4], h5⟩
      · refine Or.inr ⟨by simp [hasCycleLoop, hst, h1, h4], ?_⟩
        intro m hm
        rcases hm with hm | hm
        · rcases List.mem_cons.1 hm with h | h
          · subst h; exact h5 m (Or.inr hN.seen)
          · exact h5 m (Or.inl h)
        · exact h5 m (Or.inr (hN.mono m hm))

theorem hasCycle_spec {g : Dag} (hwf : g.WF) {tp : List Node} (htp : ∀ n, n ∈ tp ↔ n ∈ g.nodes) :
    (∃ c, hasCycle g tp = .result true [c] ∧ IsCycle g c) ∨
    (hasCycle g tp = .result false [] ∧ ¬ Cyclic g) := by
  have hI : CInv g { seen := [], stack := [], reports := [] } := by
    constructor <;> simp
  rcases hasCycleLoop_spec hwf tp _ (fun n hn => (htp n).1 hn) hI rfl with ⟨c, h⟩ | ⟨h1, h2⟩
  · exact Or.inl ⟨c, h⟩
  · refine Or.inr ⟨h1, ?_⟩
    rintro ⟨n, hn⟩
    have hmem : n ∈ g.nodes := by
      obtain ⟨c, hc, _⟩ := Relation.TransGen.head'_iff.1 hn
      exact (hwf.closed _ hc).1
    exact h2 n (Or.inl ((htp n).2 hmem)) hn

end Joque
