import Verif.Spec.Order
import Verif.Proof.Candidate
import Mathlib.Logic.Relation

/-! # `find_candidate` searches in depth-first order -/

namespace Joque

variable {g : Dag}

theorem orderedAfter_eq (n : Node) :
    orderedAfter g n = (filterEdges .after (g.outEdges n)).map Edge.tgt := by
  unfold orderedAfter filterEdges Dag.outEdges
  rw [List.filter_filter]
  congr 1
  apply List.filter_congr
  intro e _
  rw [Bool.and_comm]

theorem mem_orderedAfter {n m : Node} : m ∈ orderedAfter g n ↔ AfterEdge g n m := by
  rw [orderedAfter_eq]
  constructor
  · intro h
    obtain ⟨e, he, rfl⟩ := List.mem_map.1 h
    exact hasEdge_of_mem he
  · intro h
    obtain ⟨e, he, rfl⟩ := exists_of_hasEdge h
    exact List.mem_map_of_mem he

/-- what a visit adds is reachable -/
theorem depthFirst_ext (k : Nat) : ∀ (n : Node) (acc : List Node),
    ∃ new, depthFirst g k n acc = acc ++ new ∧ ∀ x ∈ new, Relation.ReflTransGen (AfterEdge g) n x := by
  induction k with
  | zero => intro n acc; exact ⟨[], by simp [depthFirst], by simp⟩
  | succ k ih =>
    intro n acc
    unfold depthFirst
    by_cases h : n ∈ acc
    · exact ⟨[], by simp [h], by simp⟩
    · rw [if_neg h]
      have key : ∀ (l : List Node) (acc : List Node), (∀ m ∈ l, AfterEdge g n m) →
          ∃ new, l.foldl (fun acc m => depthFirst g k m acc) acc = acc ++ new ∧
            ∀ x ∈ new, Relation.ReflTransGen (AfterEdge g) n x := by
        intro l
        induction l with
        | nil => intro acc _; exact ⟨[], by simp, by simp⟩
        | cons m l ihl =>
          intro acc hl
          obtain ⟨n1, e1, h1⟩ := ih m acc
          obtain ⟨n2, e2, h2⟩ := ihl (acc ++ n1) (fun x hx => hl x (List.mem_cons_of_mem _ hx))
          refine ⟨n1 ++ n2, ?_, ?_⟩
          · rw [List.foldl_cons, e1, e2, List.append_assoc]
          · intro x hx
            rcases List.mem_append.1 hx with hx | hx
            · exact .head (hl m (by simp)) (h1 x hx)
            · exact h2 x hx
      obtain ⟨new, e, hn⟩ := key (orderedAfter g n) acc (fun m hm => mem_orderedAfter.1 hm)
      refine ⟨new ++ [n], by rw [e, List.append_assoc], ?_⟩
      intro x hx
      rcases List.mem_append.1 hx with hx | hx
      · exact hn x hx
      · rw [List.mem_singleton.1 hx]

theorem depthFirst_fold_ext (k : Nat) (l acc : List Node) :
    ∃ new, l.foldl (fun acc m => depthFirst g k m acc) acc = acc ++ new ∧
      ∀ x ∈ new, ∃ n ∈ l, Relation.ReflTransGen (AfterEdge g) n x := by
  induction l generalizing acc with
  | nil => exact ⟨[], by simp, by simp⟩
  | cons m l ihl =>
    obtain ⟨n1, e1, h1⟩ := depthFirst_ext (g := g) k m acc
    obtain ⟨n2, e2, h2⟩ := ihl (acc ++ n1)
    refine ⟨n1 ++ n2, by rw [List.foldl_cons, e1, e2, List.append_assoc], ?_⟩
    intro x hx
    rcases List.mem_append.1 hx with hx | hx
    · exact ⟨m, by simp, h1 x hx⟩
    · obtain ⟨n, hn, h⟩ := h2 x hx
      exact ⟨n, List.mem_cons_of_mem _ hn, h⟩

/-- how many nodes are below `n` -/
noncomputable def below (g : Dag) (n : Node) : Nat := by
  classical
  exact (g.nodes.filter fun x => decide (Relation.TransGen (AfterEdge g) n x)).length

theorem below_le (n : Node) : below g n ≤ g.nodes.length := by
  unfold below
  exact List.length_filter_le _ _

theorem below_lt (hac : ¬ Cyclic g) {n m : Node} (hm : m ∈ g.nodes) (h : AfterEdge g n m) :
    below g m < below g n := by
  classical
  unfold below
  have key : ∀ l : List Node, m ∈ l →
      (l.filter fun x => decide (Relation.TransGen (AfterEdge g) m x)).length <
        (l.filter fun x => decide (Relation.TransGen (AfterEdge g) n x)).length := by
    have hle : ∀ l : List Node,
      (l.filter fun x => decide (Relation.TransGen (AfterEdge g) m x)).length ≤
        (l.filter fun x => decide (Relation.TransGen (AfterEdge g) n x)).length := by
      intro l
      rw [← List.countP_eq_length_filter, ← List.countP_eq_length_filter]
      apply List.countP_mono_left
      intro x _ hx
      simp only [decide_eq_true_eq] at hx ⊢
      exact .head h hx
    intro l hl
    induction l with
    | nil => cases hl
    | cons a l ih =>
      by_cases ha : a = m
      · subst ha
        have h1 : ¬ Relation.TransGen (AfterEdge g) a a := fun hh => hac ⟨a, hh⟩
        rw [List.filter_cons_of_neg (by simpa using h1),
          List.filter_cons_of_pos (by simpa using Relation.TransGen.single h)]
        have := hle l
        simp only [List.length_cons]
        omega
      · have := ih ((List.mem_cons.1 hl).resolve_left fun e => ha e.symm)
        by_cases h1 : Relation.TransGen (AfterEdge g) m a
        · rw [List.filter_cons_of_pos (by simpa using h1),
            List.filter_cons_of_pos (by simpa using Relation.TransGen.head h h1)]
          simp only [List.length_cons]
          omega
        · rw [List.filter_cons_of_neg (by simpa using h1)]
          rw [List.filter_cons]
          split
          · simp only [List.length_cons]; omega
          · exact this
  exact key g.nodes hm

/-- everything comes after what it is ordered after -/
def Topo (g : Dag) (l : List Node) : Prop :=
  ∀ a x b, l = a ++ x :: b → ∀ m, AfterEdge g x m → m ∈ a

theorem Topo.snoc {l : List Node} {n : Node} (h : Topo g l) (hn : ∀ m, AfterEdge g n m → m ∈ l) :
    Topo g (l ++ [n]) := by
  intro a x b e m hm
  rcases List.eq_nil_or_concat b with rfl | ⟨b', y, rfl⟩
  · have := List.append_inj' e rfl
    obtain ⟨rfl, h2⟩ := this
    obtain rfl : n = x := by simpa using h2
    exact hn m hm
  · have e' : l ++ [n] = (a ++ x :: b') ++ [y] := by rw [e]; simp
    have := List.append_inj' e' rfl
    exact h a x b' this.1 m hm

structure Dfs (g : Dag) (acc : List Node) : Prop where
  nodup : acc.Nodup
  topo : Topo g acc
  nodes : ∀ x ∈ acc, x ∈ g.nodes

theorem depthFirst_spec (hwf : g.WF) (hac : ¬ Cyclic g) (k : Nat) :
    ∀ (n : Node) (acc : List Node), n ∈ g.nodes → below g n < k → Dfs g acc →
      Dfs g (depthFirst g k n acc) ∧ n ∈ depthFirst g k n acc := by
  induction k with
  | zero => intro n acc _ h; omega
  | succ k ih =>
    intro n acc hn hk hd
    unfold depthFirst
    by_cases h : n ∈ acc
    · rw [if_pos h]; exact ⟨hd, h⟩
    · rw [if_neg h]
      have key : ∀ (l acc : List Node), (∀ m ∈ l, AfterEdge g n m) → Dfs g acc →
          Dfs g (l.foldl (fun acc m => depthFirst g k m acc) acc) ∧
          ∀ m ∈ l, m ∈ l.foldl (fun acc m => depthFirst g k m acc) acc := by
        intro l
        induction l with
        | nil => intro acc _ hd; exact ⟨hd, by simp⟩
        | cons m l ihl =>
          intro acc hl hd
          have hm : AfterEdge g n m := hl m (by simp)
          have hmn : m ∈ g.nodes := by
            obtain ⟨e, he, rfl⟩ := exists_of_hasEdge hm
            exact (hwf.closed e (mem_filterEdges_out.1 he).1).2
          obtain ⟨h1, h2⟩ := ih m acc hmn (by have := below_lt hac hmn hm; omega) hd
          obtain ⟨h3, h4⟩ := ihl _ (fun x hx => hl x (List.mem_cons_of_mem _ hx)) h1
          rw [List.foldl_cons]
          refine ⟨h3, ?_⟩
          intro x hx
          rcases List.mem_cons.1 hx with rfl | hx
          · obtain ⟨new, e, _⟩ := depthFirst_fold_ext (g := g) k l (depthFirst g k x acc)
            rw [e]
            exact List.mem_append_left _ h2
          · exact h4 x hx
      obtain ⟨h1, h2⟩ := key (orderedAfter g n) acc (fun m hm => mem_orderedAfter.1 hm) hd
      obtain ⟨new, e, hnew⟩ := depthFirst_fold_ext (g := g) k (orderedAfter g n) acc
      have hnn : n ∉ (orderedAfter g n).foldl (fun acc m => depthFirst g k m acc) acc := by
        rw [e]
        intro hx
        rcases List.mem_append.1 hx with hx | hx
        · exact h hx
        · obtain ⟨m, hm, hr⟩ := hnew n hx
          exact hac ⟨n, Relation.TransGen.head' (mem_orderedAfter.1 hm) hr⟩
      refine ⟨⟨?_, ?_, ?_⟩, by simp⟩
      · rw [List.nodup_append]
        refine ⟨h1.nodup, by simp, ?_⟩
        intro a ha b hb
        rw [List.mem_singleton.1 hb]
        rintro rfl
        exact hnn ha
      · exact h1.topo.snoc fun m hm => h2 m (mem_orderedAfter.2 hm)
      · intro x hx
        rcases List.mem_append.1 hx with hx | hx
        · exact h1.nodes x hx
        · rw [List.mem_singleton.1 hx]; exact hn

theorem startOrder_dfs (hwf : g.WF) (hac : ¬ Cyclic g) (roots : List Node)
    (hr : ∀ n ∈ roots, n ∈ g.nodes) :
    Dfs g (startOrder g roots) ∧ ∀ n ∈ roots, n ∈ startOrder g roots := by
  unfold startOrder
  have key : ∀ (l acc : List Node), (∀ n ∈ l, n ∈ g.nodes) → Dfs g acc →
      Dfs g (l.foldl (fun acc n => depthFirst g (g.nodes.length + 1) n acc) acc) ∧
      ∀ n ∈ l, n ∈ l.foldl (fun acc n => depthFirst g (g.nodes.length + 1) n acc) acc := by
    intro l
    induction l with
    | nil => intro acc _ hd; exact ⟨hd, by simp⟩
    | cons m l ihl =>
      intro acc hl hd
      obtain ⟨h1, h2⟩ := depthFirst_spec hwf hac (g.nodes.length + 1) m acc (hl m (by simp))
        (Nat.lt_succ_of_le (below_le m)) hd
      obtain ⟨h3, h4⟩ := ihl _ (fun x hx => hl x (List.mem_cons_of_mem _ hx)) h1
      rw [List.foldl_cons]
      refine ⟨h3, ?_⟩
      intro x hx
      rcases List.mem_cons.1 hx with rfl | hx
      · obtain ⟨new, e, _⟩ := depthFirst_fold_ext (g := g) (g.nodes.length + 1) l
          (depthFirst g (g.nodes.length + 1) x acc)
        rw [e]
        exact List.mem_append_left _ h2
      · exact h4 x hx
  exact key roots [] hr ⟨by simp, by intro a x b e; simp at e, by simp⟩

section
variable {res : Node → List Res} {f : Flags} {used : List Res}

/-- started or done -/
def Flags.begun (f : Flags) (n : Node) : Bool := f.started n || f.done n

/-- what a part of the search tells about the part `new` of the order -/
structure SimRes (g : Dag) (res : Node → List Res) (f : Flags) (used : List Res) (acc new S : List Node)
    (r : Option Node) (seen' : List Node) : Prop where
  none' : r = none → (∀ m ∈ new, ¬ Eligible g res f used m) ∧
    ∀ m, m ∈ seen' ↔ (m ∈ acc ++ new ∧ f.begun m = false) ∨ m ∈ S
  some' : ∀ x, r = some x → ∃ a b, new = a ++ x :: b ∧ ∀ m ∈ a, ¬ Eligible g res f used m

theorem not_eligible_of_begun {n : Node} (h : f.begun n = true) : ¬ Eligible g res f used n := by
  intro hE
  unfold Flags.begun at h
  rw [hE.notStarted, hE.notDone] at h
  cases h

theorem begun_reach (hcl : ∀ n m, f.begun n = true → AfterEdge g n m → f.begun m = true) {n x : Node}
    (hn : f.begun n = true) (h : Relation.ReflTransGen (AfterEdge g) n x) : f.begun x = true := by
  induction h with
  | refl => exact hn
  | tail _ hxy ih => exact hcl _ _ ih hxy

theorem cand_sim (hac : ¬ Cyclic g)
    (hcl : ∀ n m, f.begun n = true → AfterEdge g n m → f.begun m = true) (fuel : Nat) :
    ∀ (n : Node) (acc seen S : List Node),
      (∀ m, m ∈ seen ↔ (m ∈ acc ∧ f.begun m = false) ∨ m ∈ S) →
      (∀ s ∈ S, Relation.TransGen (AfterEdge g) s n) →
      ∀ r seen', findCand g res f used fuel n seen = some (r, seen') →
        ∃ new, depthFirst g fuel n acc = acc ++ new ∧ SimRes g res f used acc new S r seen' := by
  induction fuel with
  | zero => intro n acc seen S _ _ r seen' h; cases h
  | succ fuel ih =>
    intro n acc seen S hseen hS r seen' h
    by_cases hb : f.begun n = true
    · -- everything visited is begun
      obtain ⟨new, e, hnew⟩ := depthFirst_ext (g := g) (fuel + 1) n acc
      have hbn : ∀ x ∈ new, f.begun x = true := fun x hx => begun_reach hcl hb (hnew x hx)
      have hres : r = none ∧ seen' = seen := by
        unfold findCand at h
        have : (f.started n || f.done n || decide (n ∈ seen)) = true := by
          unfold Flags.begun at hb; rw [hb]; rfl
        rw [if_pos this] at h
        simp only [Option.some.injEq, Prod.mk.injEq] at h
        exact ⟨h.1.symm, h.2.symm⟩
      refine ⟨new, e, ?_, ?_⟩
      · intro _
        refine ⟨fun m hm => not_eligible_of_begun (hbn m hm), ?_⟩
        intro m
        rw [hres.2, hseen m]
        constructor
        · rintro (⟨h1, h2⟩ | h1)
          · exact .inl ⟨List.mem_append_left _ h1, h2⟩
          · exact .inr h1
        · rintro (⟨h1, h2⟩ | h1)
          · rcases List.mem_append.1 h1 with h1 | h1
            · exact .inl ⟨h1, h2⟩
            · rw [hbn m h1] at h2; cases h2
          · exact .inr h1
      · intro x hx; rw [hres.1] at hx; cases hx
    · have hb' : f.begun n = false := by simpa using hb
      by_cases hs : n ∈ seen
      · have hacc : n ∈ acc := by
          rcases (hseen n).1 hs with h1 | h1
          · exact h1.1
          · exact absurd ⟨n, hS n h1⟩ hac
        have hres : r = none ∧ seen' = seen := by
          unfold findCand at h
          rw [if_pos (by simp [hs])] at h
          simp only [Option.some.injEq, Prod.mk.injEq] at h
          exact ⟨h.1.symm, h.2.symm⟩
        refine ⟨[], ?_, ?_, ?_⟩
        · unfold depthFirst; simp [hacc]
        · intro _; refine ⟨by simp, ?_⟩
          rw [hres.2, List.append_nil]; exact hseen
        · intro x hx; rw [hres.1] at hx; cases hx
      · have hacc : n ∉ acc := fun h1 => hs ((hseen n).2 (.inl ⟨h1, hb'⟩))
        have loop : ∀ (es : List Edge) (acc seen : List Node),
            (∀ e ∈ es, AfterEdge g n e.tgt) →
            (∀ m, m ∈ seen ↔ (m ∈ acc ∧ f.begun m = false) ∨ m ∈ n :: S) →
            ∀ r seen', candLoop (findCand g res f used fuel) es seen = some (r, seen') →
              ∃ new, (es.map Edge.tgt).foldl (fun acc m => depthFirst g fuel m acc) acc = acc ++ new ∧
                SimRes g res f used acc new (n :: S) r seen' := by
          intro es
          induction es with
          | nil =>
            intro acc seen _ hseen r seen' h
            simp only [candLoop, Option.some.injEq, Prod.mk.injEq] at h
            obtain ⟨rfl, rfl⟩ := h
            exact ⟨[], by simp, fun _ => ⟨by simp, by simpa using hseen⟩, by simp⟩
          | cons e es ihes =>
            intro acc seen hes hseen r seen' h
            unfold candLoop at h
            cases hrec : findCand g res f used fuel e.tgt seen with
            | none => rw [hrec] at h; cases h
            | some p =>
              obtain ⟨r1, seen1⟩ := p
              have hS' : ∀ s ∈ n :: S, Relation.TransGen (AfterEdge g) s e.tgt := by
                intro s hs
                have he := hes e (by simp)
                rcases List.mem_cons.1 hs with rfl | hs
                · exact .single he
                · exact .tail (hS s hs) he
              obtain ⟨new1, e1, h1⟩ := ih e.tgt acc seen (n :: S) hseen hS' r1 seen1 hrec
              rw [hrec] at h
              simp only [List.map_cons, List.foldl_cons]
              rw [e1]
              cases r1 with
              | some x =>
                simp only [Option.some.injEq, Prod.mk.injEq] at h
                obtain ⟨rfl, rfl⟩ := h
                obtain ⟨a, b, hab, hna⟩ := h1.some' x rfl
                obtain ⟨new2, e2, _⟩ := depthFirst_fold_ext (g := g) fuel (es.map Edge.tgt) (acc ++ new1)
                refine ⟨new1 ++ new2, by rw [e2, List.append_assoc], by simp, ?_⟩
                intro y hy
                obtain rfl : x = y := by simpa using hy
                exact ⟨a, b ++ new2, by rw [hab]; simp, hna⟩
              | none =>
                obtain ⟨hn1, hs1⟩ := h1.none' rfl
                obtain ⟨new2, e2, h2⟩ := ihes (acc ++ new1) seen1
                  (fun e' he' => hes e' (List.mem_cons_of_mem _ he')) hs1 r seen' h
                refine ⟨new1 ++ new2, by rw [e2, List.append_assoc], ?_, ?_⟩
                · intro hr
                  obtain ⟨hn2, hs2⟩ := h2.none' hr
                  refine ⟨?_, by simpa [List.append_assoc] using hs2⟩
                  intro m hm
                  rcases List.mem_append.1 hm with hm | hm
                  · exact hn1 m hm
                  · exact hn2 m hm
                · intro x hx
                  obtain ⟨a, b, hab, hna⟩ := h2.some' x hx
                  refine ⟨new1 ++ a, b, by rw [hab, List.append_assoc], ?_⟩
                  intro m hm
                  rcases List.mem_append.1 hm with hm | hm
                  · exact hn1 m hm
                  · exact hna m hm
        have hskip : ¬ (f.started n || f.done n || decide (n ∈ seen)) = true := by
          unfold Flags.begun at hb'
          rw [hb']; simpa using hs
        unfold findCand at h
        rw [if_neg hskip] at h
        simp only at h
        cases hl : candLoop (findCand g res f used fuel) (filterEdges .after (g.outEdges n)) (n :: seen) with
        | none => rw [hl] at h; cases h
        | some p =>
          obtain ⟨r1, seen1⟩ := p
          rw [hl] at h
          have hseen0 : ∀ m, m ∈ n :: seen ↔ (m ∈ acc ∧ f.begun m = false) ∨ m ∈ n :: S := by
            intro m
            rw [List.mem_cons, List.mem_cons, hseen m]
            constructor
            · rintro (h | h | h)
              · exact .inr (.inl h)
              · exact .inl h
              · exact .inr (.inr h)
            · rintro (h | h | h)
              · exact .inr (.inl h)
              · exact .inl h
              · exact .inr (.inr h)
          obtain ⟨new, e, hsim⟩ := loop _ acc (n :: seen) (fun e he => hasEdge_of_mem he) hseen0 r1 seen1 hl
          rw [← orderedAfter_eq] at e
          refine ⟨new ++ [n], ?_, ?_⟩
          · unfold depthFirst
            rw [if_neg hacc, e, List.append_assoc]
          · cases r1 with
            | some x =>
              simp only [Option.some.injEq, Prod.mk.injEq] at h
              obtain ⟨rfl, rfl⟩ := h
              refine ⟨by simp, ?_⟩
              intro y hy
              obtain ⟨a, b, hab, hna⟩ := hsim.some' y hy
              exact ⟨a, b ++ [n], by rw [hab]; simp, hna⟩
            | none =>
              obtain ⟨hn1, hs1⟩ := hsim.none' rfl
              simp only at h
              by_cases hc : (!allDone f (filterEdges .after (g.outEdges n)) ||
                anyResourceUsed (res n) used) = true
              · rw [if_pos hc] at h
                simp only [Option.some.injEq, Prod.mk.injEq] at h
                obtain ⟨rfl, rfl⟩ := h
                have hne : ¬ Eligible g res f used n := by
                  intro hE
                  simp only [Bool.or_eq_true, Bool.not_eq_true'] at hc
                  rcases hc with h | h
                  · rw [allDone_iff.2 hE.predsDone] at h; simp at h
                  · obtain ⟨r, hr, hr'⟩ := anyResourceUsed_iff.1 h
                    exact hE.resFree r hr hr'
                refine ⟨fun _ => ⟨?_, ?_⟩, by simp⟩
                · intro m hm
                  rcases List.mem_append.1 hm with hm | hm
                  · exact hn1 m hm
                  · rw [List.mem_singleton.1 hm]; exact hne
                · intro m
                  rw [hs1 m]
                  constructor
                  · rintro (⟨h1, h2⟩ | h1)
                    · exact .inl ⟨by simp only [List.mem_append] at h1 ⊢; tauto, h2⟩
                    · rcases List.mem_cons.1 h1 with rfl | h1
                      · exact .inl ⟨by simp, hb'⟩
                      · exact .inr h1
                  · rintro (⟨h1, h2⟩ | h1)
                    · simp only [List.mem_append, List.mem_singleton] at h1
                      rcases h1 with h1 | h1 | h1
                      · exact .inl ⟨List.mem_append_left _ h1, h2⟩
                      · exact .inl ⟨List.mem_append_right _ h1, h2⟩
                      · exact .inr (by rw [h1]; simp)
                    · exact .inr (List.mem_cons_of_mem _ h1)
              · rw [if_neg hc] at h
                simp only [Option.some.injEq, Prod.mk.injEq] at h
                obtain ⟨rfl, rfl⟩ := h
                refine ⟨by simp, ?_⟩
                intro y hy
                obtain rfl : n = y := by simpa using hy
                exact ⟨new, [], rfl, hn1⟩

theorem candTop_sim (hac : ¬ Cyclic g)
    (hcl : ∀ n m, f.begun n = true → AfterEdge g n m → f.begun m = true) (fuel : Nat) :
    ∀ (roots acc seen : List Node), (∀ m, m ∈ seen ↔ m ∈ acc ∧ f.begun m = false) →
      ∀ r, findCandTop g res f used fuel (roots.filter fun n => !f.begun n) seen = some r →
        ∃ new, roots.foldl (fun acc n => depthFirst g fuel n acc) acc = acc ++ new ∧
          (r = none → ∀ m ∈ new, ¬ Eligible g res f used m) ∧
          ∀ x, r = some x → ∃ a b, new = a ++ x :: b ∧ ∀ m ∈ a, ¬ Eligible g res f used m := by
  intro roots
  induction roots with
  | nil =>
    intro acc seen _ r h
    simp only [List.filter_nil, findCandTop, Option.some.injEq] at h
    subst h
    exact ⟨[], by simp, by simp, by simp⟩
  | cons c roots ih =>
    intro acc seen hseen r h
    have fin : ∀ (new1 : List Node) (seen1 : List Node), depthFirst g fuel c acc = acc ++ new1 →
        (∀ m ∈ new1, ¬ Eligible g res f used m) →
        (∀ m, m ∈ seen1 ↔ m ∈ acc ++ new1 ∧ f.begun m = false) →
        findCandTop g res f used fuel (roots.filter fun n => !f.begun n) seen1 = some r →
        ∃ new, (c :: roots).foldl (fun acc n => depthFirst g fuel n acc) acc = acc ++ new ∧
          (r = none → ∀ m ∈ new, ¬ Eligible g res f used m) ∧
          ∀ x, r = some x → ∃ a b, new = a ++ x :: b ∧ ∀ m ∈ a, ¬ Eligible g res f used m := by
      intro new1 seen1 e1 hn1 hs1 h1
      obtain ⟨new2, e2, h2, h3⟩ := ih (acc ++ new1) seen1 hs1 r h1
      refine ⟨new1 ++ new2, by rw [List.foldl_cons, e1, e2, List.append_assoc], ?_, ?_⟩
      · intro hr m hm
        rcases List.mem_append.1 hm with hm | hm
        · exact hn1 m hm
        · exact h2 hr m hm
      · intro x hx
        obtain ⟨a, b, hab, hna⟩ := h3 x hx
        refine ⟨new1 ++ a, b, by rw [hab, List.append_assoc], ?_⟩
        intro m hm
        rcases List.mem_append.1 hm with hm | hm
        · exact hn1 m hm
        · exact hna m hm
    by_cases hb : f.begun c = true
    · rw [List.filter_cons_of_neg (by simp [hb])] at h
      obtain ⟨new, e, hnew⟩ := depthFirst_ext (g := g) fuel c acc
      have hbn : ∀ x ∈ new, f.begun x = true := fun x hx => begun_reach hcl hb (hnew x hx)
      refine fin new seen e (fun m hm => not_eligible_of_begun (hbn m hm)) ?_ h
      intro m
      rw [hseen m, List.mem_append]
      constructor
      · rintro ⟨h1, h2⟩; exact ⟨.inl h1, h2⟩
      · rintro ⟨h1 | h1, h2⟩
        · exact ⟨h1, h2⟩
        · rw [hbn m h1] at h2; cases h2
    · rw [List.filter_cons_of_pos (by simpa using hb)] at h
      unfold findCandTop at h
      cases hc : findCand g res f used fuel c seen with
      | none => rw [hc] at h; cases h
      | some p =>
        obtain ⟨r1, seen1⟩ := p
        rw [hc] at h
        obtain ⟨new1, e1, hsim⟩ := cand_sim hac hcl fuel c acc seen [] (by simpa using hseen) (by simp)
          r1 seen1 hc
        cases r1 with
        | none =>
          obtain ⟨hn1, hs1⟩ := hsim.none' rfl
          exact fin new1 seen1 e1 hn1 (by simpa using hs1) h
        | some x =>
          simp only [Option.some.injEq] at h
          subst h
          obtain ⟨a, b, hab, hna⟩ := hsim.some' x rfl
          obtain ⟨new2, e2, _⟩ := depthFirst_fold_ext (g := g) fuel roots (acc ++ new1)
          refine ⟨new1 ++ new2, by rw [List.foldl_cons, e1, e2, List.append_assoc], by simp, ?_⟩
          intro y hy
          obtain rfl : x = y := by simpa using hy
          exact ⟨a, b ++ new2, by rw [hab]; simp, hna⟩

end

end Joque
