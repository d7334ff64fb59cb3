import Verif.Proof.Cost
import Mathlib.Tactic.Ring
import Verif.Props.Exec3

/-! # C91: the work of the scheduler -/

namespace Joque

/-- number of orderings declared by the nodes of `l` -/
def orderingsOf (g : Dag) (l : List Node) : Nat :=
  (g.edges.filter fun e => decide (e.kind = .after) && decide (e.src ∈ l)).length

theorem workLeft_all {g : Dag} (hwf : g.WF) : workLeft g (fun _ => true) [] = orderingsOf g g.nodes := by
  rw [workLeft_nil hwf]
  unfold orderingsOf
  congr 1
  apply List.filter_congr
  intro e he
  simp [(hwf.closed e he).1]

/-- without a cycle chains have no repetitions -/
theorem chain_nodup {g : Dag} (hac : ¬ Cyclic g) {c : List Node} (hc : c.IsChain (AfterEdge g)) :
    c.Nodup := by
  have hp : c.Pairwise (Relation.TransGen (AfterEdge g)) := by
    have := hc.imp fun a b h => Relation.TransGen.single h
    exact List.isChain_iff_pairwise.1 this
  refine hp.imp fun {a b} h he => ?_
  subst he
  exact hac ⟨_, h⟩

theorem chain_nodes {g : Dag} (hwf : g.WF) {c : List Node} (hc : c.IsChain (AfterEdge g))
    (h0 : ∀ n, c.head? = some n → n ∈ g.nodes) : ∀ n ∈ c, n ∈ g.nodes := by
  induction c with
  | nil => simp
  | cons a c ih =>
    intro n hn
    rcases List.mem_cons.1 hn with rfl | hn
    · exact h0 _ rfl
    · refine ih hc.of_cons (fun m hm => ?_) n hn
      cases c with
      | nil => cases hm
      | cons b c =>
        cases hm
        rw [List.isChain_cons_cons] at hc
        exact (hwf.closed _ hc.1).2

/-- **C91**, the check for cycles: it makes at most one call for every task and one for every declared
ordering, and exactly so many if there is no cycle. -/
theorem C91_cycle_calls (g : Dag) (hwf : g.WF) :
    (hasCycleCost g (toProcessOf g)).calls ≤ g.nodes.length + orderingsOf g g.nodes ∧
    (¬ Cyclic g → (hasCycleCost g (toProcessOf g)).calls = g.nodes.length + orderingsOf g g.nodes) := by
  have htp := toProcessOf_spec g
  have hlen : (toProcessOf g).length = g.nodes.length := (toProcessOf_perm hwf).length_eq
  have hwork := workLeft_all hwf
  unfold hasCycleCost
  rcases hasCycle_spec hwf htp.2 with ⟨c, h1, h2⟩ | ⟨h1, h2⟩
  · have := hasCycle_calls hwf _ _ _ _ _ (fun n hn => (htp.2 n).1 hn) h1
    rw [hlen, hwork] at this
    exact ⟨this.1, fun h => absurd (cyclic_of_isCycle h2) h⟩
  · have := hasCycle_calls hwf _ _ _ _ _ (fun n hn => (htp.2 n).1 hn) h1
    rw [hlen, hwork] at this
    exact ⟨this.1, fun _ => this.2 rfl fun n hn => .inl ((htp.2 n).2 hn)⟩

/-- **C91**, recursion of the check for cycles: it is as deep as some chain of tasks each ordered after
the next one, so without a cycle never deeper than the number of tasks, and with one by at most one call
more. -/
theorem C91_cycle_depth (g : Dag) (hwf : g.WF) :
    (∃ c : List Node, c.IsChain (AfterEdge g) ∧ (∀ n ∈ c, n ∈ g.nodes) ∧
      c.length = (hasCycleCost g (toProcessOf g)).depth) ∧
    (hasCycleCost g (toProcessOf g)).depth ≤ g.nodes.length + 1 ∧
    (¬ Cyclic g → (hasCycleCost g (toProcessOf g)).depth ≤ g.nodes.length) := by
  have htp := toProcessOf_spec g
  obtain ⟨c, h1, h2, h3⟩ := hasCycle_depth (g := g) (g.nodes.length + 1) (by omega) (toProcessOf g)
    { seen := [], stack := [], reports := [] }
  have hc := chain_nodes hwf h1 fun n hn => (htp.2 n).1 (h3 n hn)
  refine ⟨⟨c, h1, hc, h2⟩, hasCycle_depth_le hwf _ _ _ fun n hn => (htp.2 n).1 hn, fun hac => ?_⟩
  rw [hasCycleCost, ← h2]
  exact (List.subperm_of_subset (chain_nodup hac h1) hc).length_le

/-- **C91**, the comparisons counted are those of a search from the front which stops at the first
match. -/
theorem C91_find (n : Node) :
    findCmps [] n = 0 ∧
    ∀ x l, findCmps (x :: l) n = 1 + (if x = n then 0 else findCmps l n) := by
  refine ⟨rfl, fun x l => ?_⟩
  unfold findCmps
  rw [List.idxOf_cons]
  by_cases h : x = n
  · simp [h]
  · simp only [h, if_false, List.length_cons]
    have : (x == n) = false := by simpa using h
    rw [this]
    simp
    omega

/-- **C91**, comparisons of the check for cycles, whose stack is searched from the bottom in every call:
at most the depth per call. -/
theorem C91_cycle_cmps (g : Dag) :
    (hasCycleCost g (toProcessOf g)).cmps ≤
      (hasCycleCost g (toProcessOf g)).calls * ((hasCycleCost g (toProcessOf g)).depth - 1) :=
  hasCycle_cmps _ _ _ rfl

/-- five tasks and three orderings, no cycle: 8 calls, nested twice -/
example : (Ex.cfg 2).dag.WF ∧ hasCycleCost (Ex.cfg 2).dag (toProcessOf (Ex.cfg 2).dag) = ⟨8, 2, 3⟩ ∧
    (Ex.cfg 2).dag.nodes.length + orderingsOf (Ex.cfg 2).dag (Ex.cfg 2).dag.nodes = 8 :=
  ⟨Ex.wf 2, by decide +kernel, by decide +kernel⟩

/-- a cycle of three tasks among four: the check stops after 4 calls, nested one deeper than the cycle is
long, and so does not look at the fourth task -/
example : Ex.cyc.dag.nodes.length + orderingsOf Ex.cyc.dag Ex.cyc.dag.nodes = 8 ∧
    hasCycleCost Ex.cyc.dag (toProcessOf Ex.cyc.dag) = ⟨4, 4, 4⟩ := by decide +kernel

/-- in the search phase exactly the remaining tasks are unmarked -/
theorem waiting_iff {C : Cfg} {s : St} (hI : Inv C s) (hp : s.phase = .pick) {n : Node}
    (hn : n ∈ C.dag.nodes) : s.flags.waiting n = true ↔ n ∈ s.toProcess := by
  have hmem := hI.part (by rw [hp]; rfl) n hn
  have hnd := hI.nodup
  unfold allNodes at hmem hnd
  rw [List.mem_append, List.mem_append] at hmem
  rw [List.nodup_append, List.nodup_append] at hnd
  constructor
  · intro hw
    rcases hmem with (h | h) | h
    · obtain ⟨hd, hh, rfl⟩ := List.mem_map.1 h
      have hl : hd.launched = true := by
        rcases List.mem_append.1 hh with hk | hk
        · exact hI.keptLaunched hd hk
        · obtain ⟨sl, hsl, rfl⟩ := List.mem_map.1 hk
          exact hI.pickLaunched hp sl hsl
      have := (hI.launched hd hh hl).1
      simp [Flags.waiting, this] at hw
    · have := (hI.doneIff n).2 h
      simp [Flags.waiting, this] at hw
    · exact h
  · intro h
    have h1 := hI.tpIdle n h
    have h2 : s.flags.done n = false := by
      rw [← Bool.not_eq_true]
      intro hd
      exact hnd.2.2 n (List.mem_append_right _ ((hI.doneIff n).1 hd)) n h rfl
    simp [Flags.waiting, h1, h2]

/-- **C91**, one search for a task to start (there is one in a tick at most): the number of calls is
bounded by the number of tasks that remain and the orderings these declare, and the recursion goes along
a chain of remaining tasks. -/
theorem C91_search (C : Cfg) (hwf : C.dag.WF) (ms : List Move) (hp : (exec C ms).phase = .pick) :
    let s := exec C ms
    let cost := findCandidateCost C.dag C.resources s.flags s.used s.toProcess
    cost.calls ≤ s.toProcess.length + orderingsOf C.dag s.toProcess ∧
    (∃ c : List Node, c.IsChain (AfterEdge C.dag) ∧ c.length = cost.depth ∧
      ∀ n ∈ c.dropLast, n ∈ s.toProcess) ∧
    cost.depth ≤ s.toProcess.length + 1 := by
  intro s cost
  have hI : Inv C s := inv_exec hwf ms
  have hn : ∀ n ∈ s.toProcess, n ∈ C.dag.nodes := fun n h =>
    hI.inNodes n (by unfold allNodes; exact List.mem_append_right _ h)
  obtain ⟨r, hr, -, -⟩ := findCandidate_spec (res := C.resources) (f := s.flags) (used := s.used) hwf hn
  have h1 := candTop_calls hwf _ _ _ r hn hr
  have hw : workLeft C.dag s.flags.waiting [] = orderingsOf C.dag s.toProcess := by
    rw [workLeft_nil hwf]
    unfold orderingsOf
    congr 1
    apply List.filter_congr
    intro e he
    have := waiting_iff hI hp (hwf.closed e he).1
    by_cases h : e.src ∈ s.toProcess
    · simp [h, this.2 h]
    · have h' : s.flags.waiting e.src = false := by
        rw [← Bool.not_eq_true]; exact fun hc => h (this.1 hc)
      simp [h, h']
  rw [hw] at h1
  obtain ⟨c, c1, c2, c3⟩ := candTop_depth (g := C.dag) (res := C.resources) (f := s.flags) (used := s.used)
    (C.dag.nodes.length + 1) (by omega) s.toProcess []
  have hin : ∀ n ∈ c.dropLast, n ∈ s.toProcess := by
    intro n hn
    refine (waiting_iff hI hp ?_).1 (c3 n hn)
    -- a node that is not the last of a chain has an edge
    have : ∀ (c : List Node), c.IsChain (AfterEdge C.dag) → ∀ n ∈ c.dropLast, n ∈ C.dag.nodes := by
      intro c
      induction c with
      | nil => intro _ n h; cases h
      | cons a c ih =>
        intro hc n hn
        cases c with
        | nil => simp at hn
        | cons b c =>
          rw [List.isChain_cons_cons] at hc
          rw [List.dropLast_cons_cons] at hn
          rcases List.mem_cons.1 hn with rfl | hn
          · exact (hwf.closed _ hc.1).1
          · exact ih hc.2 n hn
    exact this c c1 n hn
  have hac : ¬ Cyclic C.dag := hI.acyc (by rw [hp]; rfl)
  refine ⟨h1, ⟨c, c1, c2, hin⟩, ?_⟩
  show (findCandTopCost _ _ _ _ _ _ _).depth ≤ _
  rw [← c2]
  have := (List.subperm_of_subset ((List.dropLast_sublist c).nodup (chain_nodup hac c1)) hin).length_le
  rw [List.length_dropLast] at this
  omega

/-- the second search: four tasks remain, which declare three orderings; 7 calls find 5 -/
example : let s := exec (Ex.cfg 2) (List.replicate 9 .ctl)
    s.phase = .pick ∧ s.toProcess = [2, 3, 4, 5] ∧ orderingsOf (Ex.cfg 2).dag s.toProcess = 3 ∧
    findCandidateCost (Ex.cfg 2).dag (Ex.cfg 2).resources s.flags s.used s.toProcess = ⟨7, 2, 0⟩ := by
  decide +kernel

/-- **C91**, invalidation: the nodes whose declarations are looked at are the tasks that are out of date,
each once. -/
theorem C91_invalidation (g : Dag) (hwf : g.WF) (hasJob : Node → Bool) (ask : Node → InvalOut)
    (inval0 : Node → Inval) (hall : ∀ n ∈ g.nodes, Answers hasJob ask n) :
    (propagateVisits g hasJob ask (toProcessOf g) inval0).Nodup ∧
    ∀ n, n ∈ propagateVisits g hasJob ask (toProcessOf g) inval0 ↔ n ∈ g.nodes ∧ Stale g ask n := by
  have htp := toProcessOf_spec g
  obtain ⟨tp, s1, h1, h2, h3, -, -⟩ := queryLoop_ok (hasJob := hasJob) (ask := ask) (toProcessOf g) []
    { inval := inval0, events := [] } (fun n hn => hall n ((htp.2 n).1 hn)) (by simp)
  have h3' : ∀ x, x ∈ tp ↔ x ∈ g.nodes ∧ SelfStale ask x := by
    intro x; rw [h3 x, htp.2]; simp
  obtain ⟨a, b, c, d⟩ := propVisits_spec hwf (g.nodes.length + 1) [] tp tp s1
    (Nat.lt_succ_of_le (unseen_le _ _)) h2 (fun x hx => ((h3' x).1 hx).1) (by simp) (by simp)
  unfold propagateVisits
  rw [h1]
  refine ⟨a, fun n => ⟨fun hn => ?_, ?_⟩⟩
  · obtain ⟨-, hg, m, hm, hr⟩ := b n hn
    exact ⟨hg, m, hr, ((h3' m).1 hm).2⟩
  · rintro ⟨hg, m, hr, hs⟩
    have hm : m ∈ g.nodes := by
      rcases Relation.ReflTransGen.cases_tail hr with e | ⟨k, _, hk⟩
      · exact e ▸ hg
      · exact (hwf.closed _ hk).2
    have : ∀ x, Relation.ReflTransGen (HasEdge g .invalidatedBy) x m →
        x ∈ propVisits g (g.nodes.length + 1) tp tp s1 := by
      intro x hx
      induction hx using Relation.ReflTransGen.head_induction_on with
      | refl => exact c m ((h3' m).2 ⟨hm, hs⟩)
      | head hxy _ ih =>
        rcases d _ ih _ hxy with h | h
        · exact c _ h
        · exact h
    exact this n hr

/-- 1 to 4 say they are out of date, 5 does not; 3 is also invalidated by 1 and still visited once -/
example : propagateVisits (Ex.cfg 2).dag (Ex.cfg 2).hasJob (Ex.cfg 2).ask (toProcessOf (Ex.cfg 2).dag)
    (fun _ => .unknown) = [1, 2, 3, 4] := by decide +kernel

/-! ## The bounds are reached: a chain -/

namespace Ex

/-- `n` tasks, each ordered after the next one -/
def chainDag (n : Nat) : Dag :=
  { nodes := List.range n
    edges := (List.range (n - 1)).map fun i => ⟨i, i + 1, .after⟩
    name := fun _ => [], task := fun i => i }

theorem chain_wf (n : Nat) : (chainDag n).WF := by
  refine ⟨List.nodup_range, fun e he => ?_⟩
  obtain ⟨i, hi, rfl⟩ := List.mem_map.1 he
  rw [List.mem_range] at hi
  exact ⟨List.mem_range.2 (Nat.lt_of_lt_of_le hi (Nat.sub_le n 1)), List.mem_range.2 (Nat.add_lt_of_lt_sub hi)⟩

theorem chain_out (n i : Nat) (hi : i < n) :
    filterEdges .after ((chainDag n).outEdges i) = if i + 1 < n then [⟨i, i + 1, .after⟩] else [] := by
  unfold filterEdges Dag.outEdges chainDag
  simp only [List.filter_filter, List.filter_map]
  have : (fun a => ((fun e : Edge => decide (e.kind = .after)) ∘ fun i => (⟨i, i + 1, .after⟩ : Edge)) a &&
      ((fun e : Edge => decide (e.src = i)) ∘ fun i => (⟨i, i + 1, .after⟩ : Edge)) a) =
      fun j => decide (j = i) := by
    funext j; simp
  rw [this]
  have h2 : ∀ k, (List.range k).filter (fun j => decide (j = i)) = if i < k then [i] else [] := by
    intro k
    induction k with
    | zero => simp
    | succ k ih =>
      rw [List.range_succ, List.filter_append, ih]
      by_cases h1 : i < k
      · have : k ≠ i := by omega
        simp [h1, this, Nat.lt_succ_of_lt h1]
      · by_cases h3 : k = i
        · subst h3; simp
        · have : ¬ i < k + 1 := by omega
          simp [h1, h3, this]
  rw [h2]
  by_cases h : i + 1 < n
  · rw [if_pos (by omega), if_pos h]; rfl
  · rw [if_neg (by omega), if_neg h]; rfl

theorem chain_check (n d : Nat) : ∀ k fuel, k + d + 1 = n → d < fuel →
    checkForCycle (chainDag n) fuel k ⟨(List.range k).reverse, List.range k, []⟩ =
      some (none, ⟨(List.range n).reverse, List.range k, []⟩) ∧
    (checkForCycleCost (chainDag n) fuel k ⟨(List.range k).reverse, List.range k, []⟩).calls = d + 1 ∧
    (checkForCycleCost (chainDag n) fuel k ⟨(List.range k).reverse, List.range k, []⟩).depth = d + 1 ∧
    2 * (checkForCycleCost (chainDag n) fuel k ⟨(List.range k).reverse, List.range k, []⟩).cmps =
      (d + 1) * (2 * k + d) := by
  induction d with
  | zero =>
    intro k fuel hk hf
    obtain ⟨fuel, rfl⟩ : ∃ f, fuel = f + 1 := ⟨fuel - 1, by omega⟩
    have hout := chain_out n k (by omega)
    rw [if_neg (by omega)] at hout
    have hcm : findCmps (List.range k) k = k := by
      unfold findCmps
      rw [List.idxOf_eq_length (by simp)]
      simp
    have hn : n = k + 1 := by omega
    simp only [checkForCycle, checkForCycleCost, List.mem_reverse, List.mem_range, Nat.lt_irrefl, if_false,
      hout, cycleLoop, cycleLoopCost, Cost.call, Cost.zero, hcm]
    refine ⟨?_, by simp, by simp, by omega⟩
    rw [hn, List.range_succ]
    simp
  | succ d ih =>
    intro k fuel hk hf
    obtain ⟨fuel, rfl⟩ : ∃ f, fuel = f + 1 := ⟨fuel - 1, by omega⟩
    have hout := chain_out n k (by omega)
    rw [if_pos (by omega)] at hout
    have hcm : findCmps (List.range k) k = k := by
      unfold findCmps
      rw [List.idxOf_eq_length (by simp)]
      simp
    have hst : (k :: (List.range k).reverse) = (List.range (k + 1)).reverse := by
      rw [List.range_succ]; simp
    have hst2 : List.range k ++ [k] = List.range (k + 1) := List.range_succ.symm
    obtain ⟨i1, i2, i3, i4⟩ := ih (k + 1) fuel (by omega) (by omega)
    simp only [checkForCycle, checkForCycleCost, List.mem_reverse, List.mem_range, Nat.lt_irrefl, if_false,
      hout, cycleLoop, cycleLoopCost, Cost.call, Cost.zero, Cost.seq, hcm, hst, hst2, i1, i2, i3]
    refine ⟨?_, by simp, by simp, ?_⟩
    · rw [List.range_succ]; simp
    · rw [Nat.add_zero, Nat.mul_add, i4]
      ring

theorem chain_roots (n fuel : Nat) (l : List Node) (hl : ∀ m ∈ l, m < n) (hf : 0 < fuel) :
    hasCycleLoopCost (chainDag n) fuel l ⟨(List.range n).reverse, [], []⟩ =
      ⟨l.length, if l = [] then 0 else 1, 0⟩ := by
  induction l with
  | nil => rfl
  | cons m l ih =>
    obtain ⟨fuel, rfl⟩ : ∃ f, fuel = f + 1 := ⟨fuel - 1, by omega⟩
    have hm := hl m List.mem_cons_self
    have := ih fun x hx => hl x (List.mem_cons_of_mem _ hx)
    have h1 : checkForCycle (chainDag n) (fuel + 1) m ⟨(List.range n).reverse, [], []⟩ =
        some (none, ⟨(List.range n).reverse, [], []⟩) := by
      simp [checkForCycle, hm]
    have h2 : checkForCycleCost (chainDag n) (fuel + 1) m ⟨(List.range n).reverse, [], []⟩ = ⟨1, 1, 0⟩ := by
      simp [checkForCycleCost, hm, Cost.call, Cost.zero, findCmps]
    simp only [hasCycleLoopCost, h1, h2, this, Cost.seq]
    by_cases h : l = []
    · simp [h]
    · simp [h]; omega

end Ex

/-- **C91**: for a chain of `n` tasks, the first of which has the lowest address, the check for cycles
makes 2n - 1 calls, is nested n deep, and compares n(n - 1)/2 pointers: the bounds are reached, and the
check is quadratic. -/
theorem C91_chain (n : Nat) (hn : 0 < n) :
    toProcessOf (Ex.chainDag n) = List.range n ∧
    (hasCycleCost (Ex.chainDag n) (List.range n)).calls = 2 * n - 1 ∧
    (hasCycleCost (Ex.chainDag n) (List.range n)).depth = n ∧
    2 * (hasCycleCost (Ex.chainDag n) (List.range n)).cmps = n * (n - 1) := by
  obtain ⟨m, rfl⟩ : ∃ m, n = m + 1 := ⟨n - 1, by omega⟩
  refine ⟨?_, ?_⟩
  · have h1 := toProcessOf_spec (Ex.chainDag (m + 1))
    have h2 := toProcessOf_perm (Ex.chain_wf (m + 1))
    exact h2.eq_of_pairwise (fun a b _ _ h1 h2 => absurd (Nat.lt_trans h1 h2) (Nat.lt_irrefl _)) h1.1
      List.pairwise_lt_range
  · obtain ⟨a, b, c, d⟩ := Ex.chain_check (m + 1) m 0 (m + 1 + 1) (by omega) (by omega)
    have hr := Ex.chain_roots (m + 1) (m + 1 + 1) ((List.range m).map Nat.succ)
      (fun x hx => by
        obtain ⟨y, hy, rfl⟩ := List.mem_map.1 hx
        exact Nat.succ_lt_succ (List.mem_range.1 hy)) (by omega)
    have hlen : (Ex.chainDag (m + 1)).nodes.length = m + 1 := by simp [Ex.chainDag]
    unfold hasCycleCost
    rw [hlen, List.range_succ_eq_map]
    simp only [List.range_zero, List.reverse_nil] at a b c d
    simp only [hasCycleLoopCost, a, Cost.seq]
    rw [hr, b, c]
    refine ⟨by simp; omega, ?_, ?_⟩
    · simp only; split <;> omega
    · simp only [Nat.add_zero, d]
      simp

end Joque
