import Verif.Proof.IList3
import Verif.Spec.GraphHeap

namespace Joque

/-- reference state with the lifetimes of the three kinds of lists apart (they differ while a node
is being destroyed) -/
structure GA where
  graphs : Nat → Prop
  seq : Nat → List Nat
  outl : Nat → Prop
  inl : Nat → Prop
  edges : List (Nat × Edge)

def GA.outs (a : GA) (n : Nat) : List Nat := (a.edges.filter (fun p => p.2.src = n)).map Prod.fst
def GA.ins (a : GA) (n : Nat) : List Nat := (a.edges.filter (fun p => p.2.tgt = n)).map Prod.fst

def GA.N (a : GA) : Seqs := { seq := a.seq, lists := a.graphs, nodes := fun n => ∃ g, n ∈ a.seq g }
def GA.O (a : GA) : Seqs :=
  { seq := a.outs, lists := a.outl, nodes := fun e => e ∈ a.edges.map Prod.fst }
def GA.I (a : GA) : Seqs :=
  { seq := a.ins, lists := a.inl, nodes := fun e => e ∈ a.edges.map Prod.fst }

structure GInv (s : GH) (a : GA) : Prop where
  n : LInv s.N a.N
  o : LInv s.O a.O
  i : LInv s.I a.I
  ec : ∀ p ∈ a.edges, s.ec p.1 = p.2
  nodup : (a.edges.map Prod.fst).Nodup

/-- remove one edge -/
def GA.dropE (a : GA) (e : Nat) : GA := { a with edges := a.edges.filter (fun p => p.1 ≠ e) }

theorem filter_map_fst (q : Nat × Edge → Bool) (e : Nat) (l : List (Nat × Edge)) :
    ((l.filter (fun p => p.1 ≠ e)).filter q).map Prod.fst
      = ((l.filter q).map Prod.fst).filter (· ≠ e) := by
  induction l with
  | nil => rfl
  | cons p l ih =>
    by_cases h1 : p.1 = e
    · rw [List.filter_cons_of_neg (by simpa using h1), ih]
      by_cases h2 : q p = true
      · rw [List.filter_cons_of_pos h2, List.map_cons, List.filter_cons_of_neg (by simpa using h1)]
      · rw [List.filter_cons_of_neg h2]
    · rw [List.filter_cons_of_pos (by simpa using h1)]
      by_cases h2 : q p = true
      · rw [List.filter_cons_of_pos h2, List.filter_cons_of_pos h2, List.map_cons, List.map_cons,
          List.filter_cons_of_pos (by simpa using h1), ih]
      · rw [List.filter_cons_of_neg h2, List.filter_cons_of_neg h2, ih]

theorem mem_dropE {l : List (Nat × Edge)} {e x : Nat} :
    x ∈ (l.filter (fun p => p.1 ≠ e)).map Prod.fst ↔ x ≠ e ∧ x ∈ l.map Prod.fst := by
  simp only [List.mem_map, List.mem_filter, ne_eq, decide_eq_true_eq]
  constructor
  · rintro ⟨p, ⟨h1, h2⟩, rfl⟩; exact ⟨h2, p, h1, rfl⟩
  · rintro ⟨h, p, h1, rfl⟩; exact ⟨p, ⟨h1, h⟩, rfl⟩

theorem dropE_O (a : GA) (e : Nat) : (a.dropE e).O = (LOp.deleteNode e).apply a.O := by
  show ({ seq := _, lists := _, nodes := _ } : Seqs) = { seq := _, lists := _, nodes := _ }
  congr 1
  · funext n; exact filter_map_fst _ e a.edges
  · funext x; exact propext mem_dropE

theorem dropE_I (a : GA) (e : Nat) : (a.dropE e).I = (LOp.deleteNode e).apply a.I := by
  show ({ seq := _, lists := _, nodes := _ } : Seqs) = { seq := _, lists := _, nodes := _ }
  congr 1
  · funext n; exact filter_map_fst _ e a.edges
  · funext x; exact propext mem_dropE

theorem GInv.deleteEdge {s : GH} {a : GA} (h : GInv s a) {e : Nat}
    (he : e ∈ a.edges.map Prod.fst) :
    ∃ s', s.deleteEdge e = some s' ∧ GInv s' (a.dropE e) ∧ s'.freed = s.freed ++ [.edge e] := by
  obtain ⟨I', e1, _, h1⟩ := h.i.deleteNode he
  obtain ⟨O', e2, _, h2⟩ := h.o.deleteNode he
  refine ⟨{ s with I := I', O := O', freed := s.freed ++ [.edge e] }, ?_, ⟨h.n, ?_, ?_, ?_, ?_⟩, rfl⟩
  · unfold GH.deleteEdge; rw [e1, Option.bind_some, e2]; rfl
  · rw [dropE_O]; exact h2
  · rw [dropE_I]; exact h1
  · intro p hp; exact h.ec p (List.mem_filter.1 hp).1
  · exact List.Nodup.sublist (List.Sublist.map _ List.filter_sublist) h.nodup

/-- state while the edges `gone` of a list are being deleted -/
def GA.without (a : GA) (gone : List Nat) : GA :=
  { a with edges := a.edges.filter (fun p => decide (p.1 ∉ gone)) }

theorem without_nil (a : GA) : a.without [] = a := by
  unfold GA.without
  have : a.edges.filter (fun p => decide (p.1 ∉ ([] : List Nat))) = a.edges :=
    List.filter_eq_self.2 (by simp)
  rw [this]

theorem without_snoc (a : GA) (gone : List Nat) (x : Nat) :
    (a.without gone).dropE x = a.without (gone ++ [x]) := by
  unfold GA.without GA.dropE
  simp only
  congr 1
  rw [List.filter_filter]
  apply List.filter_congr
  intro p _
  by_cases h1 : p.1 ∈ gone <;> by_cases h2 : p.1 = x <;> simp [h1, h2]

theorem filter_without {l : List (Nat × Edge)} (hnd : (l.map Prod.fst).Nodup)
    (q : Nat × Edge → Bool) {gone xs : List Nat} (hs : (l.filter q).map Prod.fst = gone ++ xs) :
    ((l.filter (fun p => decide (p.1 ∉ gone))).filter q).map Prod.fst = xs := by
  have hnd2 : ((l.filter q).map Prod.fst).Nodup :=
    List.Nodup.sublist (List.Sublist.map _ List.filter_sublist) hnd
  have : ((l.filter (fun p => decide (p.1 ∉ gone))).filter q).map Prod.fst
      = ((l.filter q).map Prod.fst).filter (fun x => decide (x ∉ gone)) := by
    rw [List.filter_map, List.filter_filter, List.filter_filter]
    congr 1
    apply List.filter_congr
    intro p _
    exact Bool.and_comm _ _
  rw [this, hs, List.filter_append, List.filter_eq_nil_iff.2, List.nil_append,
    List.filter_eq_self.2]
  · intro x hx
    rw [hs] at hnd2
    simp only [decide_eq_true_eq]
    intro hx'
    exact (List.nodup_append.1 hnd2).2.2 x hx' x hx rfl
  · intro x hx; simpa using hx

/-- deleting all edges of an in list -/
theorem GInv.deleteIns {s : GH} {a : GA} (h : GInv s a) {n fuel : Nat} (hn : a.inl n)
    (hf : (a.ins n).length < fuel) :
    ∃ s', LS.deleteAll GH.I GH.deleteEdge n fuel s = some s' ∧
      GInv s' { a with edges := a.edges.filter (fun p => p.2.tgt ≠ n) } ∧
      s'.freed = s.freed ++ (a.ins n).map .edge := by
  let R : GH → List Nat → Prop := fun s' xs =>
    ∃ gone, a.ins n = gone ++ xs ∧ GInv s' (a.without gone) ∧
      s'.freed = s.freed ++ gone.map .edge
  obtain ⟨s', e, gone, hg, hI, hl⟩ := deleteAll_spec GH.I GH.deleteEdge n R
    (fun s' xs ⟨gone, hg, hI, _⟩ => by
      have hs : (a.without gone).I.seq n = xs := filter_without h.nodup _ hg
      rw [LS.getNx, if_pos ((hI.i.liveH n).2 hn), (hI.i.nx_live (l := n) hn).1, hs])
    (fun s' x xs ⟨gone, hg, hI, hl⟩ => by
      have hs : (a.without gone).I.seq n = x :: xs := filter_without h.nodup _ hg
      have hx : x ∈ (a.without gone).edges.map Prod.fst := hI.i.mem n x (by rw [hs]; simp)
      obtain ⟨s'', e1, e2, e3⟩ := hI.deleteEdge hx
      rw [without_snoc] at e2
      exact ⟨s'', e1, gone ++ [x], by simpa using hg, e2, by rw [e3, hl]; simp⟩)
    (a.ins n) fuel s ⟨[], rfl, by rw [without_nil]; exact h, by simp⟩ hf
  rw [List.append_nil] at hg
  refine ⟨s', e, ?_, by rw [hl, hg]⟩
  have : a.without gone = { a with edges := a.edges.filter (fun p => p.2.tgt ≠ n) } := by
    unfold GA.without
    congr 1
    apply List.filter_congr
    intro p hp
    rw [← hg]
    unfold GA.ins
    by_cases ht : p.2.tgt = n
    · have : p.1 ∈ (a.edges.filter (fun p => p.2.tgt = n)).map Prod.fst :=
        List.mem_map.2 ⟨p, List.mem_filter.2 ⟨hp, by simpa using ht⟩, rfl⟩
      simp [ht, this]
    · have : p.1 ∉ (a.edges.filter (fun p => p.2.tgt = n)).map Prod.fst := by
        intro hm
        obtain ⟨p', hp', he⟩ := List.mem_map.1 hm
        obtain ⟨h1, h2⟩ := List.mem_filter.1 hp'
        have : p' = p := by rw [Prod.ext_iff]; exact ⟨he, by rw [← h.ec p' h1, ← h.ec p hp, he]⟩
        rw [this] at h2
        exact ht (by simpa using h2)
      simp [ht, this]
  rw [← this]; exact hI

/-- deleting all edges of an out list -/
theorem GInv.deleteOuts {s : GH} {a : GA} (h : GInv s a) {n fuel : Nat} (hn : a.outl n)
    (hf : (a.outs n).length < fuel) :
    ∃ s', LS.deleteAll GH.O GH.deleteEdge n fuel s = some s' ∧
      GInv s' { a with edges := a.edges.filter (fun p => p.2.src ≠ n) } ∧
      s'.freed = s.freed ++ (a.outs n).map .edge := by
  let R : GH → List Nat → Prop := fun s' xs =>
    ∃ gone, a.outs n = gone ++ xs ∧ GInv s' (a.without gone) ∧
      s'.freed = s.freed ++ gone.map .edge
  obtain ⟨s', e, gone, hg, hI, hl⟩ := deleteAll_spec GH.O GH.deleteEdge n R
    (fun s' xs ⟨gone, hg, hI, _⟩ => by
      have hs : (a.without gone).O.seq n = xs := filter_without h.nodup _ hg
      rw [LS.getNx, if_pos ((hI.o.liveH n).2 hn), (hI.o.nx_live (l := n) hn).1, hs])
    (fun s' x xs ⟨gone, hg, hI, hl⟩ => by
      have hs : (a.without gone).O.seq n = x :: xs := filter_without h.nodup _ hg
      have hx : x ∈ (a.without gone).edges.map Prod.fst := hI.o.mem n x (by rw [hs]; simp)
      obtain ⟨s'', e1, e2, e3⟩ := hI.deleteEdge hx
      rw [without_snoc] at e2
      exact ⟨s'', e1, gone ++ [x], by simpa using hg, e2, by rw [e3, hl]; simp⟩)
    (a.outs n) fuel s ⟨[], rfl, by rw [without_nil]; exact h, by simp⟩ hf
  rw [List.append_nil] at hg
  refine ⟨s', e, ?_, by rw [hl, hg]⟩
  have : a.without gone = { a with edges := a.edges.filter (fun p => p.2.src ≠ n) } := by
    unfold GA.without
    congr 1
    apply List.filter_congr
    intro p hp
    rw [← hg]
    unfold GA.outs
    by_cases ht : p.2.src = n
    · have : p.1 ∈ (a.edges.filter (fun p => p.2.src = n)).map Prod.fst :=
        List.mem_map.2 ⟨p, List.mem_filter.2 ⟨hp, by simpa using ht⟩, rfl⟩
      simp [ht, this]
    · have : p.1 ∉ (a.edges.filter (fun p => p.2.src = n)).map Prod.fst := by
        intro hm
        obtain ⟨p', hp', he⟩ := List.mem_map.1 hm
        obtain ⟨h1, h2⟩ := List.mem_filter.1 hp'
        have : p' = p := by rw [Prod.ext_iff]; exact ⟨he, by rw [← h.ec p' h1, ← h.ec p hp, he]⟩
        rw [this] at h2
        exact ht (by simpa using h2)
      simp [ht, this]
  rw [← this]; exact hI

/-- the reference state between operations -/
def Graphs.ga (a : Graphs) : GA :=
  { graphs := a.graphs, seq := a.seq, outl := a.Alive, inl := a.Alive, edges := a.edges }

/-- remove one node and its edges -/
def Graphs.dropN (a : Graphs) (n : Nat) : Graphs :=
  { a with seq := fun g => (a.seq g).filter (· ≠ n)
           edges := a.edges.filter (fun p => !touches [n] p) }

theorem dropN_alive (a : Graphs) (n x : Nat) : (a.dropN n).Alive x ↔ x ≠ n ∧ a.Alive x := by
  unfold Graphs.Alive Graphs.dropN
  simp only [List.mem_filter, ne_eq, decide_eq_true_eq]
  exact ⟨fun ⟨g, h1, h2⟩ => ⟨h2, g, h1⟩, fun ⟨h2, g, h1⟩ => ⟨g, h1, h2⟩⟩

theorem dropN_N (a : Graphs) (n : Nat) : (a.dropN n).ga.N = (LOp.deleteNode n).apply a.ga.N := by
  show ({ seq := _, lists := _, nodes := _ } : Seqs) = { seq := _, lists := _, nodes := _ }
  congr 1
  funext x; exact propext (dropN_alive a n x)

theorem perm_edges (l : List (Nat × Edge)) (n : Nat) :
    ((l.filter (fun p => p.2.tgt = n)).map Prod.fst ++
      ((l.filter (fun p => p.2.tgt ≠ n)).filter (fun p => p.2.src = n)).map Prod.fst).Perm
    ((l.filter (touches [n])).map Prod.fst) := by
  rw [← List.map_append]
  apply List.Perm.map
  induction l with
  | nil => exact List.Perm.refl _
  | cons p l ih =>
    by_cases h1 : p.2.tgt = n
    · rw [List.filter_cons_of_pos (by simpa using h1), List.filter_cons_of_neg (by simpa using h1),
        List.filter_cons_of_pos (by simp [touches, h1])]
      exact ih.cons p
    · rw [List.filter_cons_of_neg (by simpa using h1), List.filter_cons_of_pos (by simpa using h1)]
      by_cases h2 : p.2.src = n
      · rw [List.filter_cons_of_pos (by simpa using h2),
          List.filter_cons_of_pos (by simp [touches, h2])]
        exact List.perm_middle.trans (ih.cons p)
      · rw [List.filter_cons_of_neg (by simpa using h2),
          List.filter_cons_of_neg (by simp [touches, h1, h2])]
        exact ih

theorem GInv.deleteNode {s : GH} {a : Graphs} (h : GInv s a.ga) {n fuel : Nat} (hn : a.Alive n)
    (hf : a.edges.length < fuel) :
    ∃ s' new, s.deleteNode fuel n = some s' ∧ GInv s' (a.dropN n).ga ∧
      s'.freed = s.freed ++ new ∧
      new.Perm (.node n :: (a.edges.filter (touches [n])).map (fun p => .edge p.1)) := by
  obtain ⟨N', e1, _, h1⟩ := h.n.deleteNode hn
  -- after lheader_
  let a1 : GA := { a.ga with seq := (a.dropN n).seq }
  have hI1 : GInv { s with N := N' } a1 := by
    refine ⟨?_, h.o, h.i, h.ec, h.nodup⟩
    rw [← dropN_N] at h1
    exact h1
  obtain ⟨s2, e2, h2, l2⟩ := hI1.deleteIns (n := n) (fuel := fuel) hn (by
    refine Nat.lt_of_le_of_lt ?_ hf
    show ((a.edges.filter _).map _).length ≤ _
    rw [List.length_map]; exact List.length_filter_le _ _)
  -- after the body of ~list of in_edges_
  obtain ⟨I3, e3, h3⟩ := h2.i.destroyHead (l := n) hn (by
    show ((a.edges.filter (fun p => p.2.tgt ≠ n)).filter (fun p => p.2.tgt = n)).map Prod.fst = []
    rw [List.filter_filter, List.filter_eq_nil_iff.2]
    · rfl
    · intro p _; by_cases h : p.2.tgt = n <;> simp [h])
  let a3 : GA := { a1 with inl := fun x => x ≠ n ∧ a.Alive x
                           edges := a.edges.filter (fun p => p.2.tgt ≠ n) }
  have hI3 : GInv { s2 with I := I3 } a3 := ⟨h2.n, h2.o, h3, h2.ec, h2.nodup⟩
  obtain ⟨s4, e4, h4, l4⟩ := hI3.deleteOuts (n := n) (fuel := fuel) hn (by
    refine Nat.lt_of_le_of_lt ?_ hf
    show (((a.edges.filter _).filter _).map _).length ≤ _
    rw [List.length_map]
    exact Nat.le_trans (List.length_filter_le _ _) (List.length_filter_le _ _))
  obtain ⟨O5, e5, h5⟩ := h4.o.destroyHead (l := n) hn (by
    show ((((a.edges.filter (fun p => p.2.tgt ≠ n)).filter (fun p => p.2.src ≠ n))).filter
      (fun p => p.2.src = n)).map Prod.fst = []
    rw [List.filter_filter (p := fun p : Nat × Edge => decide (p.2.src = n)), List.filter_eq_nil_iff.2]
    · rfl
    · intro p _; by_cases h : p.2.src = n <;> simp [h])
  refine ⟨{ s4 with O := O5, freed := s4.freed ++ [.node n] },
    ((a.ga.ins n).map .edge ++ (a3.outs n).map .edge) ++ [.node n], ?_, ?_, ?_, ?_⟩
  · unfold GH.deleteNode
    rw [e1, Option.bind_some, e2, Option.bind_some, e3, Option.bind_some, e4, Option.bind_some, e5]
    rfl
  · have hal : (a.dropN n).Alive = fun x => x ≠ n ∧ a.Alive x := by
      funext x; exact propext (dropN_alive a n x)
    have hed : (a.dropN n).edges =
        (a.edges.filter (fun p => p.2.tgt ≠ n)).filter (fun p => p.2.src ≠ n) := by
      show a.edges.filter _ = _
      rw [List.filter_filter]
      apply List.filter_congr
      intro p _
      by_cases h1 : p.2.src = n <;> by_cases h2 : p.2.tgt = n <;> simp [touches, h1, h2]
    have hga : (a.dropN n).ga =
        { graphs := a.graphs, seq := (a.dropN n).seq, outl := fun x => x ≠ n ∧ a.Alive x
          inl := fun x => x ≠ n ∧ a.Alive x
          edges := (a.edges.filter (fun p => p.2.tgt ≠ n)).filter (fun p => p.2.src ≠ n) } := by
      unfold Graphs.ga
      rw [hal, hed]; rfl
    rw [hga]
    exact ⟨h4.n, h5, h4.i, h4.ec, h4.nodup⟩
  · show s4.freed ++ _ = _
    rw [l4]
    show (s2.freed ++ _) ++ _ = _
    rw [l2]
    show ((s.freed ++ (a.ga.ins n).map _) ++ _) ++ _ = _
    simp [List.append_assoc]
  · refine (List.perm_append_singleton _ _).trans (List.Perm.cons _ ?_)
    rw [← List.map_append]
    have := (perm_edges a.edges n).map Obj.edge
    rw [List.map_map] at this
    exact this

end Joque
