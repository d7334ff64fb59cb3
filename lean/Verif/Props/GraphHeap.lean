import Verif.Proof.GraphHeap3

/-! # Graph ownership (C31, C32), moving graphs (C33), the graph behind the dag API (C53) -/

namespace Joque

theorem GInv.reach {os : List GOp} (hok : GOk Graphs.init os) {fuel : Nat} (hf : os.length < fuel)
    {s : GH} (hs : GH.empty.ops fuel os = some s) :
    GInv s (GOp.run Graphs.init os).ga ∧ (∀ g, ((GOp.run Graphs.init os).seq g).length < fuel) ∧
      (GOp.run Graphs.init os).edges.length < fuel := by
  obtain ⟨s', e, h, h1, h2⟩ := GInv.ops (fuel := fuel) os GH.empty Graphs.init 0 GInv.init hok
    (fun _ => Nat.le_refl 0) (Nat.le_refl 0) (by omega)
  rw [hs] at e
  cases e
  exact ⟨h, fun g => by have := h1 g; omega, by omega⟩

/-- **C31**, no undefined behaviour: a program that respects the contracts never touches an object
outside its lifetime, whatever shapes it builds (self loops, parallel edges, edges between graphs)
and however it removes them. -/
theorem C31_safe (os : List GOp) (hok : GOk Graphs.init os) (fuel : Nat) (hf : os.length < fuel) :
    ∃ s, GH.empty.ops fuel os = some s := by
  obtain ⟨s', e, _⟩ := GInv.ops (fuel := fuel) os GH.empty Graphs.init 0 GInv.init hok
    (fun _ => Nat.le_refl 0) (Nat.le_refl 0) (by omega)
  exact ⟨s', e⟩

/-- **C31**.  Destroying a graph frees exactly its nodes and the edges that start or end at one of
them, each once, and leaves the rest. -/
theorem C31_destroy (os : List GOp) (hok : GOk Graphs.init os) (fuel : Nat) (hf : os.length < fuel)
    (s : GH) (hs : GH.empty.ops fuel os = some s) (g : Nat)
    (hg : (GOp.run Graphs.init os).graphs g) :
    ∃ s' new, s.destroyGraph fuel g = some s' ∧ s'.freed = s.freed ++ new ∧ new.Nodup ∧
      (∀ n, .node n ∈ new ↔ n ∈ (GOp.run Graphs.init os).seq g) ∧
      (∀ e, .edge e ∈ new ↔ ∃ c, (e, c) ∈ (GOp.run Graphs.init os).edges ∧
        (c.src ∈ (GOp.run Graphs.init os).seq g ∨ c.tgt ∈ (GOp.run Graphs.init os).seq g)) := by
  obtain ⟨h, h1, h2⟩ := GInv.reach hok hf hs
  obtain ⟨s', new, e, _, hl, hp⟩ := h.op (fuel := fuel) (.destroyGraph g) hg h1 h2
  refine ⟨s', new, e, hl, hp.nodup_iff.2 (frees_nodup h _), fun n => ?_, fun e => ?_⟩
  · rw [hp.mem_iff, mem_frees_node]; rfl
  · rw [hp.mem_iff, mem_frees_edge]
    simp only [touches_iff, GOp.gone]
    constructor
    · rintro ⟨⟨e', c⟩, h3, h4, rfl⟩; exact ⟨c, h3, h4⟩
    · rintro ⟨c, h3, h4⟩; exact ⟨(e, c), h3, h4, rfl⟩

/-- **C31**, balance: whenever no graph is left, what was freed is exactly what was allocated,
each object once per allocation. -/
theorem C31_no_leak (os : List GOp) (hok : GOk Graphs.init os) (fuel : Nat) (hf : os.length < fuel)
    (s : GH) (hs : GH.empty.ops fuel os = some s)
    (hend : ∀ g, ¬ (GOp.run Graphs.init os).graphs g) :
    s.freed.Perm (os.flatMap GOp.creates) := by
  obtain ⟨h, _, _⟩ := GInv.reach hok hf hs
  rw [List.perm_iff_count]
  intro x
  have hb := balance_ops (fuel := fuel) os GH.empty Graphs.init 0 GInv.init hok
    (fun _ => Nat.le_refl 0) (Nat.le_refl 0) (by omega) s hs x
  have hno : ∀ n, ¬ (GOp.run Graphs.init os).Alive n := by
    rintro n ⟨g, hn⟩
    have := h.n.dead g (hend g)
    replace this : (GOp.run Graphs.init os).seq g = [] := this
    rw [this] at hn
    cases hn
  have h1 : Graphs.init.num x = 0 := by
    apply num_neg
    cases x with
    | node n => rintro ⟨g, hn⟩; cases hn
    | edge e => intro he; cases he
  have h2 : (GOp.run Graphs.init os).num x = 0 := by
    apply num_neg
    cases x with
    | node n => exact hno n
    | edge e =>
      intro he
      obtain ⟨p, hp, _⟩ := List.mem_map.1 he
      have : p.1 ∈ (GOp.run Graphs.init os).ga.outs p.2.src :=
        List.mem_map.2 ⟨p, List.mem_filter.2 ⟨hp, by simp⟩, rfl⟩
      exact hno _ (h.o.alive this)
  have h3 : GH.empty.freed.count x = 0 := rfl
  omega

/-- **C32**.  `clear_if(f)` keeps exactly the nodes that do not match, in order; every surviving node
keeps exactly its edges to and from survivors, in order; everything else is freed, once. -/
theorem C32_clear_if (os : List GOp) (hok : GOk Graphs.init os) (fuel : Nat) (hf : os.length < fuel)
    (s : GH) (hs : GH.empty.ops fuel os = some s) (g : Nat) (f : Nat → Bool)
    (hg : (GOp.run Graphs.init os).graphs g) (ns : List Nat) (hns : s.nodes fuel g = some ns) :
    ∃ s' new, s.clearIf fuel g f = some s' ∧
      s'.nodes fuel g = some (ns.filter (fun n => !f n)) ∧
      (∀ n, (GOp.run Graphs.init os).Alive n → (n ∈ ns → f n = false) → ∀ out inc,
        s.outEdges fuel n = some out → s.inEdges fuel n = some inc →
        s'.outEdges fuel n = some (out.filter (fun e => !(decide (e.tgt ∈ ns) && f e.tgt))) ∧
        s'.inEdges fuel n = some (inc.filter (fun e => !(decide (e.src ∈ ns) && f e.src)))) ∧
      s'.freed = s.freed ++ new ∧ new.Nodup ∧
      (∀ n, .node n ∈ new ↔ n ∈ ns ∧ f n = true) ∧
      (∀ e, .edge e ∈ new ↔ ∃ c, (e, c) ∈ (GOp.run Graphs.init os).edges ∧
        (c.src ∈ ns ∧ f c.src = true ∨ c.tgt ∈ ns ∧ f c.tgt = true)) := by
  obtain ⟨h, h1, h2⟩ := GInv.reach hok hf hs
  obtain ⟨s', new, e, h', hl, hp⟩ := h.op (fuel := fuel) (.clearIf g f) hg h1 h2
  rw [h.nodes (fuel := fuel) hg (Nat.le_of_lt (h1 g))] at hns
  cases hns
  generalize hA : GOp.run Graphs.init os = a at *
  have hle : ((GOp.clearIf g f).apply a).edges.length ≤ fuel :=
    Nat.le_trans (List.length_filter_le _ _) (Nat.le_of_lt h2)
  refine ⟨s', new, e, ?_, ?_, hl, hp.nodup_iff.2 (frees_nodup h _), fun n => ?_, fun e => ?_⟩
  · rw [h'.nodes (g := g) (fuel := fuel) hg]
    · congr 1; exact fset_same _ _ _
    · show (fset a.seq g _ g).length ≤ _
      rw [fset_same]
      exact Nat.le_trans (List.length_filter_le _ _) (Nat.le_of_lt (h1 g))
  · intro n hn hnf out inc ho hi
    have hal : ((GOp.clearIf g f).apply a).Alive n := by
      have := (exists_remove h (.inl ⟨g, f, rfl⟩) (.node n)).1.2 ⟨hn, ?_⟩
      · exact this
      · rw [mem_frees_node]
        intro hm
        obtain ⟨m1, m2⟩ := List.mem_filter.1 hm
        rw [hnf m1] at m2
        cases m2
    rw [h.outEdges hn (Nat.le_of_lt h2)] at ho
    rw [h.inEdges hn (Nat.le_of_lt h2)] at hi
    cases ho
    cases hi
    have hsn : (decide (n ∈ (a.seq g).filter f)) = false := by
      rw [decide_eq_false_iff_not, List.mem_filter]
      rintro ⟨m1, m2⟩
      rw [hnf m1] at m2
      cases m2
    have hdec : ∀ m, decide (m ∈ (a.seq g).filter f) = (decide (m ∈ a.seq g) && f m) := by
      intro m
      rw [Bool.eq_iff_iff]
      simp [List.mem_filter]
    rw [h'.outEdges hal hle, h'.inEdges hal hle]
    have hmm : ∀ q : Edge → Bool, ((a.edges.filter fun p => !touches ((a.seq g).filter f) p).map
        Prod.snd).filter q = ((a.edges.map Prod.snd).filter q).filter (fun c =>
          !(decide (c.src ∈ (a.seq g).filter f) || decide (c.tgt ∈ (a.seq g).filter f))) := by
      intro q
      rw [List.filter_map, List.filter_map, List.filter_map, List.filter_filter, List.filter_filter]
      congr 1
      apply List.filter_congr
      intro p _
      show (_ && _) = (_ && _)
      rw [Bool.and_comm]; rfl
    constructor
    · congr 1
      refine (hmm _).trans (List.filter_congr ?_)
      intro c hc
      have : c.src = n := by simpa using (List.mem_filter.1 hc).2
      rw [this, hsn, hdec, Bool.false_or]
    · congr 1
      refine (hmm _).trans (List.filter_congr ?_)
      intro c hc
      have : c.tgt = n := by simpa using (List.mem_filter.1 hc).2
      rw [this, hsn, hdec, Bool.or_false]
  · rw [hp.mem_iff, mem_frees_node]
    exact List.mem_filter
  · rw [hp.mem_iff, mem_frees_edge]
    simp only [touches_iff, GOp.gone, List.mem_filter]
    constructor
    · rintro ⟨⟨e', c⟩, h3, h4, rfl⟩; exact ⟨c, h3, h4⟩
    · rintro ⟨c, h3, h4⟩; exact ⟨(e, c), h3, h4, rfl⟩

/-- **C33**, move construction: the new graph iterates over exactly the nodes of the source, the
source is empty, every node keeps its edges, nothing is freed. -/
theorem C33_construct (os : List GOp) (hok : GOk Graphs.init os) (fuel : Nat) (hf : os.length < fuel)
    (s : GH) (hs : GH.empty.ops fuel os = some s) (g h : Nat)
    (hg : ¬ (GOp.run Graphs.init os).graphs g) (hh : (GOp.run Graphs.init os).graphs h)
    (ns : List Nat) (hns : s.nodes fuel h = some ns) :
    ∃ s', s.moveConstruct g h = some s' ∧ s'.nodes fuel g = some ns ∧ s'.nodes fuel h = some [] ∧
      s'.freed = s.freed ∧ ∀ n, s'.outEdges fuel n = s.outEdges fuel n ∧
        s'.inEdges fuel n = s.inEdges fuel n := by
  obtain ⟨hI, h1, h2⟩ := GInv.reach hok hf hs
  have hgh : g ≠ h := by rintro rfl; exact hg hh
  rw [hI.nodes (fuel := fuel) hh (Nat.le_of_lt (h1 h))] at hns
  cases hns
  obtain ⟨s', e, h', hl⟩ := hI.moveGraph hg hh
  have hseq : ∀ k, ((GOp.moveGraph g h).apply (GOp.run Graphs.init os)).seq k
    = fset (fset (GOp.run Graphs.init os).seq g ((GOp.run Graphs.init os).seq h)) h [] k :=
    fun _ => rfl
  refine ⟨s', e, ?_, ?_, hl, fun n => ?_⟩
  · rw [h'.nodes (g := g) (fuel := fuel) (.inl rfl)]
    · rw [hseq, fset_other _ _ hgh, fset_same]
    · rw [hseq, fset_other _ _ hgh, fset_same]; exact Nat.le_of_lt (h1 h)
  · rw [h'.nodes (g := h) (fuel := fuel) (.inr hh)]
    · rw [hseq, fset_same]
    · rw [hseq, fset_same]; exact Nat.zero_le _
  · unfold GH.moveConstruct at e
    cases hm : s.N.moveConstruct (.head g) (.head h) with
    | none => rw [hm] at e; cases e
    | some N => rw [hm] at e; cases e; exact ⟨rfl, rfl⟩

/-- **C33_partial**, move assignment into a graph that has no nodes: the same, and the program may go
on (in particular destroy both graphs: nothing leaks). -/
theorem C33_partial (os : List GOp) (hok : GOk Graphs.init os) (fuel : Nat) (hf : os.length < fuel)
    (s : GH) (hs : GH.empty.ops fuel os = some s) (g h : Nat) (hgh : g ≠ h)
    (hg : (GOp.run Graphs.init os).graphs g) (hh : (GOp.run Graphs.init os).graphs h)
    (ns : List Nat) (hns : s.nodes fuel h = some ns) (hemp : s.nodes fuel g = some []) :
    ∃ s', s.moveAssign g h = some s' ∧ s'.nodes fuel g = some ns ∧ s'.nodes fuel h = some [] ∧
      s'.freed = s.freed ∧
      ∃ s2 new s3, s'.destroyGraph fuel g = some s2 ∧ s2.destroyGraph fuel h = some s3 ∧
        s3.freed = s.freed ++ new ∧ new.Nodup ∧
        (∀ n, .node n ∈ new ↔ n ∈ ns) ∧
        (∀ e, .edge e ∈ new ↔ ∃ c, (e, c) ∈ (GOp.run Graphs.init os).edges ∧
          (c.src ∈ ns ∨ c.tgt ∈ ns)) := by
  obtain ⟨hI, h1, h2⟩ := GInv.reach hok hf hs
  rw [hI.nodes (fuel := fuel) hh (Nat.le_of_lt (h1 h))] at hns
  rw [hI.nodes (fuel := fuel) hg (Nat.le_of_lt (h1 g))] at hemp
  cases hns
  generalize hA : GOp.run Graphs.init os = a at *
  have hemp' : a.seq g = [] := Option.some.inj hemp
  obtain ⟨N, eN, hN⟩ := hI.n.assignEmpty (l := g) (m := h) hg hh hgh hemp'
  let b : Graphs := { a with seq := fset (fset a.seq g (a.seq h)) h [] }
  let s' : GH := { s with N := N }
  have hal : b.Alive = a.Alive := by
    funext n
    apply propext
    show (∃ k, n ∈ fset (fset a.seq g (a.seq h)) h [] k) ↔ ∃ k, n ∈ a.seq k
    constructor
    · rintro ⟨k, hk⟩
      unfold fset at hk
      split at hk
      · cases hk
      · split at hk
        · exact ⟨h, hk⟩
        · exact ⟨k, hk⟩
    · rintro ⟨k, hk⟩
      by_cases e1 : k = h
      · exact ⟨g, by rw [fset_other _ _ hgh, fset_same, ← e1]; exact hk⟩
      · by_cases e2 : k = g
        · rw [e2, hemp'] at hk; cases hk
        · exact ⟨k, by rw [fset_other _ _ e1, fset_other _ _ e2]; exact hk⟩
  have hb : GInv s' b.ga := by
    refine ⟨?_, ?_, ?_, hI.ec, hI.nodup⟩
    · show LInv N { seq := _, lists := _, nodes := b.Alive }
      rw [hal]; exact hN
    · show LInv s.O { seq := _, lists := b.Alive, nodes := _ }
      rw [hal]; exact hI.o
    · show LInv s.I { seq := _, lists := b.Alive, nodes := _ }
      rw [hal]; exact hI.i
  have hbg : b.seq g = a.seq h := by
    show fset _ _ _ g = _
    rw [fset_other _ _ hgh, fset_same]
  have hbh : b.seq h = [] := fset_same _ _ _
  refine ⟨s', ?_, ?_, ?_, rfl, ?_⟩
  · show (s.N.moveAssign _ _).map _ = _
    rw [eN]; rfl
  · rw [hb.nodes (g := g) (fuel := fuel) hg (by rw [hbg]; exact Nat.le_of_lt (h1 h)), hbg]
  · rw [hb.nodes (g := h) (fuel := fuel) hh (by rw [hbh]; exact Nat.zero_le _), hbh]
  · obtain ⟨s2, new, e2, hI2, hl2, hp2⟩ := hb.destroyGraph (g := g) (fuel := fuel) hg
      (by rw [hbg]; exact h1 h) h2
    have h2h : ((GOp.destroyGraph g).apply b).seq h = [] := by
      show fset _ _ _ h = _
      rw [fset_other _ _ hgh.symm, hbh]
    have hpos : 0 < fuel := by omega
    obtain ⟨s3, new3, e3, hI3, hl3, hp3⟩ := hI2.destroyGraph (g := h) (fuel := fuel)
      ⟨hgh.symm, hh⟩ (by rw [h2h]; exact hpos)
      (Nat.lt_of_le_of_lt (List.length_filter_le _ _) h2)
    rw [frees_nil (o := .destroyGraph h) (show ((GOp.destroyGraph g).apply b).seq h = [] from h2h)]
      at hp3
    rw [hp3.eq_nil, List.append_nil] at hl3
    refine ⟨s2, new, s3, e2, e3, by rw [hl3, hl2], hp2.nodup_iff.2 (frees_nodup hb _), fun n => ?_,
      fun e => ?_⟩
    · rw [hp2.mem_iff, mem_frees_node]
      show n ∈ b.seq g ↔ _
      rw [hbg]
    · rw [hp2.mem_iff, mem_frees_edge]
      simp only [touches_iff, GOp.gone, hbg]
      constructor
      · rintro ⟨⟨e', c⟩, h3, h4, rfl⟩; exact ⟨c, h3, h4⟩
      · rintro ⟨c, h3, h4⟩; exact ⟨(e, c), h3, h4, rfl⟩

/-- **C33** is false for move assignment into a graph that has nodes: always, all of them stay
allocated, are not freed, and are in no graph any more. -/
theorem C33_assign_leaks (os : List GOp) (hok : GOk Graphs.init os) (fuel : Nat)
    (hf : os.length < fuel) (s : GH) (hs : GH.empty.ops fuel os = some s) (g h : Nat) (hgh : g ≠ h)
    (hg : (GOp.run Graphs.init os).graphs g) (hh : (GOp.run Graphs.init os).graphs h)
    (old : List Nat) (hold : s.nodes fuel g = some old) :
    ∃ s', s.moveAssign g h = some s' ∧ s'.freed = s.freed ∧
      ∀ n ∈ old, s'.N.live (.node n) = true ∧
        ∀ k, (GOp.run Graphs.init os).graphs k → ∃ ns, s'.nodes fuel k = some ns ∧ n ∉ ns := by
  obtain ⟨hI, h1, h2⟩ := GInv.reach hok hf hs
  rw [hI.nodes (fuel := fuel) hg (Nat.le_of_lt (h1 g))] at hold
  cases hold
  obtain ⟨N, eN, hlive, hch⟩ := hI.n.assign (l := g) (m := h) hg hh hgh
  refine ⟨{ s with N := N }, ?_, rfl, fun n hn => ⟨?_, fun k hk => ?_⟩⟩
  · show (s.N.moveAssign _ _).map _ = _
    rw [eN]; rfl
  · show N.live _ = true
    rw [hlive]; exact (hI.n.liveN n).2 ⟨g, hn⟩
  · have hsub : ∀ x ∈ fset (fset (GOp.run Graphs.init os).seq g ((GOp.run Graphs.init os).seq h)) h [] k,
        ∃ k', x ∈ (GOp.run Graphs.init os).seq k' ∧ k' ≠ g := by
      intro x hx
      unfold fset at hx
      split at hx
      · cases hx
      · split at hx
        · exact ⟨h, hx, hgh.symm⟩
        · rename_i hkg; exact ⟨k, hx, hkg⟩
    have hw := walk_chain (s := N)
      (xs := fset (fset (GOp.run Graphs.init os).seq g ((GOp.run Graphs.init os).seq h)) h [] k)
      (fun x hx => by
        rw [hlive]
        obtain ⟨k', hk', _⟩ := hsub x hx
        exact (hI.n.liveN x).2 ⟨k', hk'⟩) (hch k hk) fuel (by
        unfold fset
        split
        · exact Nat.zero_le _
        · split
          · exact Nat.le_of_lt (h1 h)
          · exact Nat.le_of_lt (h1 k))
    refine ⟨fset (fset (GOp.run Graphs.init os).seq g ((GOp.run Graphs.init os).seq h)) h [] k,
      ?_, ?_⟩
    · show N.toList fuel k = _
      unfold LS.toList LS.begin'
      rw [LS.getNx, if_pos (by rw [hlive]; exact (hI.n.liveH k).2 hk), (hch k hk).nx_eq,
        Option.map_some, hd_getNode]
      exact hw
    · intro hx
      obtain ⟨k', hk', hne⟩ := hsub n hx
      exact hne (hI.n.disj k' g n hk' hn)

namespace Ex

/-- Self loop, parallel edges, a cycle, an edge between two graphs. -/
def gprog : List GOp :=
  [.newGraph 1, .newGraph 2, .emplace 1 10, .emplace 1 11, .emplace 1 12, .emplace 2 20,
   .addEdge 100 10 11 .after, .addEdge 101 10 11 .requires, .addEdge 102 11 10 .after,
   .addEdge 103 11 11 .after, .addEdge 104 12 20 .after, .addEdge 105 20 10 .after]

end Ex

theorem Ex.gprog_ok : GOk Graphs.init Ex.gprog := by
  simp [GOk, GOp.Pre, GOp.apply, Graphs.init, Ex.gprog, Graphs.Alive, fset]
  and_intros <;>
    first
    | (refine ⟨1, ?_⟩; simp; done)
    | (refine ⟨2, ?_⟩; simp; done)
    | (intro x; split_ifs <;> simp)

example : ((GH.empty.ops 13 Ex.gprog).bind (·.nodes 13 1)) = some [12, 11, 10] ∧
    ((GH.empty.ops 13 (Ex.gprog ++ [.clearIf 1 (· == 11)])).map (·.freed))
      = some [.edge 103, .edge 101, .edge 100, .edge 102, .node 11] ∧
    ((GH.empty.ops 14 (Ex.gprog ++ [.clearIf 1 (· == 11)])).bind (·.nodes 13 1)) = some [12, 10] ∧
    ((GH.empty.ops 14 (Ex.gprog ++ [.destroyGraph 1, .destroyGraph 2])).map (·.freed.length))
      = some 10 := by decide +kernel

/-- hypotheses of `C31_no_leak` and of `C33_partial` -/
example : GOk Graphs.init [.newGraph 1, .emplace 1 10, .addEdge 100 10 10 .after, .destroyGraph 1] ∧
    (∀ g, ¬ (GOp.run Graphs.init [.newGraph 1, .emplace 1 10, .addEdge 100 10 10 .after,
      .destroyGraph 1]).graphs g) ∧
    GOk Graphs.init [.newGraph 1, .newGraph 2, .emplace 2 20] ∧
    ((GH.empty.ops 4 [.newGraph 1, .newGraph 2, .emplace 2 20]).bind (·.nodes 4 1)) = some [] := by
  refine ⟨?_, ?_, ?_, by decide +kernel⟩
  · simp [GOk, GOp.Pre, GOp.apply, Graphs.init, Graphs.Alive, fset]
  · simp [GOp.run, GOp.apply, Graphs.init]
  · simp [GOk, GOp.Pre, GOp.apply, Graphs.init, Graphs.Alive, fset]

/-- **C33**: two graphs of one node; after `g1 = std::move(g2)` and the destruction of both graphs
node 10 was never freed, though it was allocated. -/
theorem C33_counterexample :
    GOk Graphs.init [.newGraph 1, .newGraph 2, .emplace 1 10, .emplace 2 20] ∧
    (((GH.empty.ops 5 [.newGraph 1, .newGraph 2, .emplace 1 10, .emplace 2 20]).bind fun s =>
      (s.moveAssign 1 2).bind fun s => (s.destroyGraph 5 2).bind fun s => s.destroyGraph 5 1).map
        fun s => (s.freed, s.N.live (.node 10))) = some ([.node 20], true) := by
  constructor
  · simp [GOk, GOp.Pre, GOp.apply, Graphs.init, Graphs.Alive, fset]
  · decide +kernel

/-! ## The dag used everywhere else in the model -/

theorem run_onHeap (g : Nat) (os : List DOp) (a : Graphs) (d : Dag) (hn : a.seq g = d.nodes)
    (he : a.edges.map Prod.snd = d.edges) (hg : a.graphs g) :
    (GOp.run a (os.map (DOp.onHeap g))).seq g = (os.foldl DOp.onDag d).nodes ∧
    (GOp.run a (os.map (DOp.onHeap g))).edges.map Prod.snd = (os.foldl DOp.onDag d).edges ∧
    (GOp.run a (os.map (DOp.onHeap g))).graphs g := by
  induction os generalizing a d with
  | nil => exact ⟨hn, he, hg⟩
  | cons o os ih =>
    refine ih ((o.onHeap g).apply a) (o.onDag d) ?_ ?_ ?_
    · cases o with
      | emplace n name t =>
        show fset a.seq g (n :: a.seq g) g = n :: d.nodes
        rw [fset_same, hn]
      | addEdge e s t k => exact hn
    · cases o with
      | emplace n name t => exact he
      | addEdge e s t k =>
        show (⟨s, t, k⟩ : Edge) :: a.edges.map Prod.snd = _
        rw [he]; rfl
    · cases o <;> exact hg

/-- **C53**.  Building a dag through `emplace` and `add_edge` on linked objects: iterating the graph,
the out edges and the in edges of any of its nodes gives exactly what the `Dag` of the model
(Model/Basic) says, in the same order – also after the graph was moved, as `exec` does. -/
theorem C53_refines (g g' : Nat) (hgg : g' ≠ g) (os : List DOp)
    (hok : GOk Graphs.init (.newGraph g :: os.map (DOp.onHeap g))) (fuel : Nat)
    (hf : os.length + 2 < fuel) :
    ∃ s s', GH.empty.ops fuel (.newGraph g :: os.map (DOp.onHeap g)) = some s ∧
      s.moveConstruct g' g = some s' ∧
      s.nodes fuel g = some (os.foldl DOp.onDag Dag.empty).nodes ∧
      s'.nodes fuel g' = some (os.foldl DOp.onDag Dag.empty).nodes ∧
      ∀ n ∈ (os.foldl DOp.onDag Dag.empty).nodes,
        s.outEdges fuel n = some ((os.foldl DOp.onDag Dag.empty).outEdges n) ∧
        s.inEdges fuel n = some ((os.foldl DOp.onDag Dag.empty).inEdges n) ∧
        s'.outEdges fuel n = some ((os.foldl DOp.onDag Dag.empty).outEdges n) ∧
        s'.inEdges fuel n = some ((os.foldl DOp.onDag Dag.empty).inEdges n) := by
  have hlen : (GOp.newGraph g :: os.map (DOp.onHeap g)).length < fuel := by
    rw [List.length_cons, List.length_map]; omega
  obtain ⟨s, hs⟩ := C31_safe _ hok fuel hlen
  obtain ⟨hI, h1, h2⟩ := GInv.reach hok hlen hs
  obtain ⟨hn, he, hg⟩ := run_onHeap g os ((GOp.newGraph g).apply Graphs.init) Dag.empty
    (fset_same _ _ _) rfl (.inl rfl)
  have hrun : GOp.run Graphs.init (.newGraph g :: os.map (DOp.onHeap g))
    = GOp.run ((GOp.newGraph g).apply Graphs.init) (os.map (DOp.onHeap g)) := rfl
  have hng : ¬ (GOp.run Graphs.init (.newGraph g :: os.map (DOp.onHeap g))).graphs g' := by
    have : ∀ (os : List DOp) (a : Graphs), (GOp.run a (os.map (DOp.onHeap g))).graphs = a.graphs := by
      intro os
      induction os with
      | nil => intro a; rfl
      | cons o os ih =>
        intro a
        refine (ih ((o.onHeap g).apply a)).trans ?_
        cases o <;> rfl
    rw [hrun, this]
    rintro (h | h)
    · exact hgg h
    · exact h
  rw [← hrun] at hn he hg
  generalize GOp.run Graphs.init (.newGraph g :: os.map (DOp.onHeap g)) = a at *
  have hnodes : s.nodes fuel g = some (os.foldl DOp.onDag Dag.empty).nodes := by
    rw [hI.nodes (fuel := fuel) hg (Nat.le_of_lt (h1 g)), hn]
  obtain ⟨s', e', hI', _⟩ := hI.moveGraph hng hg
  have hseq' : ((GOp.moveGraph g' g).apply a).seq g' = a.seq g := by
    show fset _ _ _ g' = _
    rw [fset_other _ _ hgg, fset_same]
  refine ⟨s, s', hs, e', hnodes, ?_, ?_⟩
  · rw [hI'.nodes (g := g') (fuel := fuel) (.inl rfl) (by rw [hseq']; exact Nat.le_of_lt (h1 g)),
      hseq', hn]
  · intro n hm
    have hal : a.Alive n := ⟨g, by rw [hn]; exact hm⟩
    have hal' : ((GOp.moveGraph g' g).apply a).Alive n := ⟨g', by rw [hseq', hn]; exact hm⟩
    refine ⟨?_, ?_, ?_, ?_⟩
    · rw [hI.outEdges hal (Nat.le_of_lt h2), he]; rfl
    · rw [hI.inEdges hal (Nat.le_of_lt h2), he]; rfl
    · rw [hI'.outEdges hal' (Nat.le_of_lt h2)]
      show some ((a.edges.map Prod.snd).filter _) = _
      rw [he]; rfl
    · rw [hI'.inEdges hal' (Nat.le_of_lt h2)]
      show some ((a.edges.map Prod.snd).filter _) = _
      rw [he]; rfl

namespace Ex

def dprog : List DOp :=
  [.emplace 10 ['a'] 1, .emplace 11 ['b'] 2, .addEdge 100 10 11 .after, .addEdge 101 10 11 .requires,
   .addEdge 102 11 11 .after]

end Ex

example : GOk Graphs.init (.newGraph 1 :: Ex.dprog.map (DOp.onHeap 1)) := by
  simp [GOk, GOp.Pre, GOp.apply, Graphs.init, Ex.dprog, Graphs.Alive, fset, DOp.onHeap]
  and_intros <;> exact ⟨1, by simp⟩

end Joque
