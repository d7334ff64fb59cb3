import Verif.Proof.GraphHeap

namespace Joque

/-- remove nodes and their edges -/
def Graphs.dropNs (a : Graphs) (ns : List Nat) : Graphs :=
  { a with seq := fun g => (a.seq g).filter (fun x => decide (x ∉ ns))
           edges := a.edges.filter (fun p => !touches ns p) }

theorem dropNs_nil (a : Graphs) : a.dropNs [] = a := by
  unfold Graphs.dropNs
  have h1 : (fun g => (a.seq g).filter (fun x => decide (x ∉ ([] : List Nat)))) = a.seq := by
    funext g; exact List.filter_eq_self.2 (by simp)
  have h2 : a.edges.filter (fun p => !touches [] p) = a.edges :=
    List.filter_eq_self.2 (by simp [touches])
  rw [h1, h2]

theorem touches_snoc (ns : List Nat) (n : Nat) (p : Nat × Edge) :
    touches (ns ++ [n]) p = (touches ns p || touches [n] p) := by
  unfold touches
  rw [Bool.eq_iff_iff]
  simp only [List.mem_append, List.mem_singleton, Bool.or_eq_true, decide_eq_true_eq]
  constructor
  · rintro ((h | h) | (h | h)) <;> simp [h]
  · rintro ((h | h) | (h | h)) <;> simp [h]

theorem dropNs_snoc (a : Graphs) (ns : List Nat) (n : Nat) :
    (a.dropNs ns).dropN n = a.dropNs (ns ++ [n]) := by
  unfold Graphs.dropNs Graphs.dropN
  simp only
  congr 1
  · funext g
    rw [List.filter_filter]
    apply List.filter_congr
    intro x _
    by_cases h1 : x ∈ ns <;> by_cases h2 : x = n <;> simp [h1, h2]
  · rw [List.filter_filter]
    apply List.filter_congr
    intro p _
    rw [touches_snoc]
    cases touches ns p <;> cases touches [n] p <;> rfl

theorem frees_snoc (l : List (Nat × Edge)) (ns : List Nat) (n : Nat) :
    (l.filter (touches (ns ++ [n]))).Perm
      (l.filter (touches ns) ++ (l.filter (fun p => !touches ns p)).filter (touches [n])) := by
  induction l with
  | nil => exact List.Perm.refl _
  | cons p l ih =>
    cases h1 : touches ns p with
    | true =>
      rw [List.filter_cons_of_pos (by rw [touches_snoc, h1]; rfl), List.filter_cons_of_pos h1,
        List.filter_cons_of_neg (by simp [h1])]
      exact ih.cons p
    | false =>
      rw [List.filter_cons_of_neg (p := touches ns) (by simp [h1]),
        List.filter_cons_of_pos (p := fun p => !touches ns p) (by simp [h1])]
      cases h2 : touches [n] p with
      | true =>
        rw [List.filter_cons_of_pos (by rw [touches_snoc, h2]; simp), List.filter_cons_of_pos h2]
        exact (ih.cons p).trans List.perm_middle.symm
      | false =>
        rw [List.filter_cons_of_neg (by rw [touches_snoc, h1, h2]; simp),
          List.filter_cons_of_neg (by simp [h2])]
        exact ih

/-- the log entry for removing `ns` -/
def freesOf (a : Graphs) (ns : List Nat) : List Obj :=
  ns.map .node ++ (a.edges.filter (touches ns)).map (fun p => .edge p.1)

/-- state in the middle of removing nodes -/
def Removed (s0 : GH) (a : Graphs) (gone : List Nat) (s : GH) : Prop :=
  GInv s (a.dropNs gone).ga ∧ ∃ new, s.freed = s0.freed ++ new ∧ new.Perm (freesOf a gone)

theorem Removed.step {s0 s : GH} {a : Graphs} {gone : List Nat} {x fuel : Nat}
    (h : Removed s0 a gone s) (hx : (a.dropNs gone).Alive x) (hf : a.edges.length < fuel) :
    ∃ s', s.deleteNode fuel x = some s' ∧ Removed s0 a (gone ++ [x]) s' := by
  obtain ⟨hI, new, hl, hp⟩ := h
  obtain ⟨s', new', e, hI', hl', hp'⟩ := hI.deleteNode hx
    (Nat.lt_of_le_of_lt (List.length_filter_le _ _) hf)
  refine ⟨s', e, by rw [← dropNs_snoc]; exact hI', new ++ new', by rw [hl', hl]; simp, ?_⟩
  refine (hp.append hp').trans ?_
  unfold freesOf
  have h1 := (frees_snoc a.edges gone x).map (fun p => Obj.edge p.1)
  rw [List.map_append] at h1
  refine List.Perm.trans ?_ (List.Perm.append_left _ h1.symm)
  rw [List.map_append, List.append_assoc, List.append_assoc]
  apply List.Perm.append_left
  show (_ ++ Obj.node x :: _).Perm ([Obj.node x] ++ _)
  exact List.perm_middle

theorem seq_without {l : List Nat} (hnd : l.Nodup) {gone xs : List Nat} (hs : l = gone ++ xs) :
    l.filter (fun x => decide (x ∉ gone)) = xs := by
  rw [hs] at hnd
  rw [hs, List.filter_append, List.filter_eq_nil_iff.2, List.nil_append, List.filter_eq_self.2]
  · intro x hx
    simp only [decide_eq_true_eq]
    intro hx'
    exact (List.nodup_append.1 hnd).2.2 x hx' x hx rfl
  · intro x hx; simpa using hx

theorem GInv.deleteNodes {s : GH} {a : Graphs} (h : GInv s a.ga) {g fuel : Nat} (hg : a.graphs g)
    (hf1 : (a.seq g).length < fuel) (hf2 : a.edges.length < fuel) :
    ∃ s', LS.deleteAll GH.N (GH.deleteNode fuel) g fuel s = some s' ∧ Removed s a (a.seq g) s' := by
  let R : GH → List Nat → Prop := fun s' xs => ∃ gone, a.seq g = gone ++ xs ∧ Removed s a gone s'
  obtain ⟨s', e, gone, hgo, hR⟩ := deleteAll_spec GH.N (GH.deleteNode fuel) g R
    (fun s' xs ⟨gone, hgo, hR⟩ => by
      have hs : (a.dropNs gone).ga.N.seq g = xs := seq_without (h.n.nodup g) hgo
      rw [LS.getNx, if_pos ((hR.1.n.liveH g).2 hg), (hR.1.n.nx_live (l := g) hg).1, hs])
    (fun s' x xs ⟨gone, hgo, hR⟩ => by
      have hs : (a.dropNs gone).seq g = x :: xs := seq_without (h.n.nodup g) hgo
      obtain ⟨s'', e1, hR'⟩ := hR.step (x := x) ⟨g, by rw [hs]; simp⟩ hf2
      exact ⟨s'', e1, gone ++ [x], by simpa using hgo, hR'⟩)
    (a.seq g) fuel s ⟨[], rfl, by rw [dropNs_nil]; exact h, [], by simp, by
      have : a.edges.filter (touches []) = [] := List.filter_eq_nil_iff.2 (by simp [touches])
      simp [freesOf, this]⟩ hf1
  rw [List.append_nil] at hgo
  exact ⟨s', e, by rw [hgo]; exact hR⟩

theorem dropNs_seq {s : GH} {a : Graphs} (h : GInv s a.ga) (g : Nat) :
    (a.dropNs (a.seq g)).seq = fset a.seq g [] := by
  funext k
  show (a.seq k).filter _ = _
  by_cases hk : k = g
  · rw [hk, fset_same]; exact List.filter_eq_nil_iff.2 (by intro x hx; simpa using hx)
  · rw [fset_other _ _ hk]
    apply List.filter_eq_self.2
    intro x hx
    simp only [decide_eq_true_eq]
    intro hx'
    exact hk (h.n.disj k g x hx hx')

theorem GInv.destroyGraph {s : GH} {a : Graphs} (h : GInv s a.ga) {g fuel : Nat} (hg : a.graphs g)
    (hf1 : (a.seq g).length < fuel) (hf2 : a.edges.length < fuel) :
    ∃ s' new, s.destroyGraph fuel g = some s' ∧ GInv s' ((GOp.destroyGraph g).apply a).ga ∧
      s'.freed = s.freed ++ new ∧ new.Perm ((GOp.destroyGraph g).frees a) := by
  obtain ⟨s1, e1, h1, new, hl, hp⟩ := h.deleteNodes hg hf1 hf2
  have hs := dropNs_seq h g
  obtain ⟨N2, e2, h2⟩ := h1.n.destroyHead (l := g) hg (by
    show (a.dropNs (a.seq g)).seq g = []
    rw [hs, fset_same])
  refine ⟨{ s1 with N := N2 }, new, ?_, ?_, hl, hp⟩
  · unfold GH.destroyGraph; rw [e1, Option.bind_some, e2]; rfl
  · have hseq : ((GOp.destroyGraph g).apply a).seq = (a.dropNs (a.seq g)).seq := hs.symm
    have hal : ((GOp.destroyGraph g).apply a).Alive = (a.dropNs (a.seq g)).Alive := by
      funext x; unfold Graphs.Alive; rw [hseq]
    refine ⟨?_, ?_, ?_, h1.ec, h1.nodup⟩
    · show LInv N2 { seq := ((GOp.destroyGraph g).apply a).seq, lists := _, nodes := ((GOp.destroyGraph g).apply a).Alive }
      rw [hseq, hal]; exact h2
    · show LInv s1.O { seq := _, lists := ((GOp.destroyGraph g).apply a).Alive, nodes := _ }
      rw [hal]; exact h1.o
    · show LInv s1.I { seq := _, lists := ((GOp.destroyGraph g).apply a).Alive, nodes := _ }
      rw [hal]; exact h1.i

theorem GInv.clearIf {s : GH} {a : Graphs} (h : GInv s a.ga) {g fuel : Nat} (hg : a.graphs g)
    (f : Nat → Bool) (hf1 : (a.seq g).length < fuel) (hf2 : a.edges.length < fuel) :
    ∃ s' new, s.clearIf fuel g f = some s' ∧ GInv s' ((GOp.clearIf g f).apply a).ga ∧
      s'.freed = s.freed ++ new ∧ new.Perm ((GOp.clearIf g f).frees a) := by
  let R : GH → List Nat → List Nat → Prop := fun s' pre post =>
    ∃ done, a.seq g = done ++ post ∧ pre = done.filter (fun x => !f x) ∧
      Removed s a (done.filter f) s'
  have hseq : ∀ done post, a.seq g = done ++ post →
      (a.dropNs (done.filter f)).seq g = done.filter (fun x => !f x) ++ post := by
    intro done post hd
    have hnd : (done ++ post).Nodup := hd ▸ h.n.nodup g
    show (a.seq g).filter _ = _
    rw [hd, List.filter_append]
    congr 1
    · apply List.filter_congr
      intro x hx
      cases hfx : f x <;> simp [hfx, hx]
    · apply List.filter_eq_self.2
      intro x hx
      simp only [List.mem_filter, decide_eq_true_eq]
      rintro ⟨hx', _⟩
      exact (List.nodup_append.1 hnd).2.2 x hx' x hx rfl
  obtain ⟨s', e, dn, hd1, hd2, hR⟩ := clearIf_spec GH.N (GH.deleteNode fuel) f R
    (fun s' pre x post ⟨d, hd1, hd2, hR⟩ => by
      refine hR.1.n.inc (l := g) (pre := pre) ?_
      show (a.dropNs (d.filter f)).seq g = _
      rw [hseq d _ hd1, hd2])
    (fun s' pre x post ⟨d, hd1, hd2, hR⟩ hfx => by
      obtain ⟨s'', e1, hR'⟩ := hR.step (x := x) ⟨g, by rw [hseq d _ hd1]; simp⟩ hf2
      refine ⟨s'', e1, d ++ [x], by simpa using hd1, by rw [hd2]; simp [hfx], ?_⟩
      rw [List.filter_append]
      simpa [hfx] using hR')
    (fun s' pre x post ⟨d, hd1, hd2, hR⟩ hfx => by
      refine ⟨d ++ [x], by simpa using hd1, by rw [hd2]; simp [hfx], ?_⟩
      rw [List.filter_append]
      simpa [hfx] using hR)
    (a.seq g) fuel [] s ⟨[], rfl, rfl, by rw [List.filter_nil, dropNs_nil]; exact h, [], by simp, by
      have : a.edges.filter (touches []) = [] := List.filter_eq_nil_iff.2 (by simp [touches])
      simp [freesOf, this]⟩ (Nat.le_of_lt hf1)
  rw [List.append_nil] at hd1
  obtain ⟨hI, new, hl, hp⟩ := hR
  rw [← hd1] at hI hp
  refine ⟨s', new, ?_, ?_, hl, hp⟩
  · unfold GH.clearIf
    rw [h.n.begin' (l := g) hg]
    exact e
  · have : (GOp.clearIf g f).apply a = a.dropNs ((a.seq g).filter f) := by
      show ({ a with seq := _, edges := _ } : Graphs) = { a with seq := _, edges := _ }
      congr 1
      funext k
      by_cases hk : k = g
      · rw [hk, fset_same]
        have := hseq (a.seq g) [] (by simp)
        rw [List.append_nil] at this
        exact this.symm
      · rw [fset_other _ _ hk]
        symm
        apply List.filter_eq_self.2
        intro x hx
        simp only [List.mem_filter, decide_eq_true_eq]
        rintro ⟨hx', _⟩
        exact hk (h.n.disj k g x hx hx')
    rw [this]; exact hI

theorem GInv.newGraph {s : GH} {a : Graphs} (h : GInv s a.ga) {g : Nat} (hg : ¬ a.graphs g) :
    GInv (s.newGraph g) ((GOp.newGraph g).apply a).ga := by
  have hs : fset a.seq g [] = a.seq := by
    funext x; unfold fset; split
    · rename_i e; rw [e]; exact (h.n.dead g hg).symm
    · rfl
  have happ : (GOp.newGraph g).apply a = { a with graphs := fun x => x = g ∨ a.graphs x } := by
    show ({ a with graphs := _, seq := fset a.seq g [] } : Graphs) = _
    rw [hs]
  rw [happ]
  refine ⟨?_, h.o, h.i, h.ec, h.nodup⟩
  have := h.n.newList (l := g) hg
  have hap : (LOp.newList g).apply a.ga.N = { a.ga.N with lists := fun x => x = g ∨ a.graphs x } := by
    show ({ seq := fset a.seq g [], lists := _, nodes := _ } : Seqs) = _
    rw [hs]; rfl
  rw [hap] at this
  exact this

theorem GInv.emplace {s : GH} {a : Graphs} (h : GInv s a.ga) {g n : Nat} (hg : a.graphs g)
    (hn : ¬ a.Alive n) :
    ∃ s', s.emplace g n = some s' ∧ GInv s' ((GOp.emplace g n).apply a).ga ∧ s'.freed = s.freed := by
  have h1 := h.n.newNode (n := n) hn
  obtain ⟨N', e, _, hN⟩ := h1.linkFront (l := g) (n := n) hg (.inl rfl) (fun k hk => hn ⟨k, hk⟩)
  have hO := h.o.newList (l := n) hn
  have hI := h.i.newList (l := n) hn
  refine ⟨{ s with N := N', O := s.O.construct (.head n), I := s.I.construct (.head n) }, ?_, ?_, rfl⟩
  · unfold GH.emplace; rw [e]; rfl
  have hal : ((GOp.emplace g n).apply a).Alive = fun x => x = n ∨ a.Alive x := by
    funext x
    apply propext
    show (∃ k, x ∈ fset a.seq g (n :: a.seq g) k) ↔ _
    constructor
    · rintro ⟨k, hk⟩
      unfold fset at hk
      split at hk
      · rcases List.mem_cons.1 hk with rfl | hk
        · exact .inl rfl
        · exact .inr ⟨g, hk⟩
      · exact .inr ⟨k, hk⟩
    · rintro (rfl | ⟨k, hk⟩)
      · exact ⟨g, by rw [fset_same]; simp⟩
      · refine ⟨k, ?_⟩
        unfold fset
        split
        · rename_i e; rw [e] at hk; simp [hk]
        · exact hk
  have hout : a.ga.outs n = [] := h.o.dead n hn
  have hin : a.ga.ins n = [] := h.i.dead n hn
  refine ⟨?_, ?_, ?_, h.ec, h.nodup⟩
  · show LInv N' { seq := _, lists := _, nodes := ((GOp.emplace g n).apply a).Alive }
    rw [hal]; exact hN
  · show LInv _ { seq := a.ga.outs, lists := ((GOp.emplace g n).apply a).Alive, nodes := _ }
    rw [hal]
    have : fset a.ga.outs n [] = a.ga.outs := by
      funext x; unfold fset; split
      · rename_i e; rw [e, hout]
      · rfl
    have hap : (LOp.newList n).apply a.ga.O =
        { seq := a.ga.outs, lists := fun x => x = n ∨ a.Alive x, nodes := a.ga.O.nodes } := by
      show ({ seq := fset a.ga.outs n [], lists := _, nodes := _ } : Seqs) = _
      rw [this]; rfl
    rw [hap] at hO
    exact hO
  · show LInv _ { seq := a.ga.ins, lists := ((GOp.emplace g n).apply a).Alive, nodes := _ }
    rw [hal]
    have : fset a.ga.ins n [] = a.ga.ins := by
      funext x; unfold fset; split
      · rename_i e; rw [e, hin]
      · rfl
    have hap : (LOp.newList n).apply a.ga.I =
        { seq := a.ga.ins, lists := fun x => x = n ∨ a.Alive x, nodes := a.ga.I.nodes } := by
      show ({ seq := fset a.ga.ins n [], lists := _, nodes := _ } : Seqs) = _
      rw [this]; rfl
    rw [hap] at hI
    exact hI

theorem GInv.addEdge {s : GH} {a : Graphs} (h : GInv s a.ga) {e x y : Nat} {k : EKind}
    (he : e ∉ a.edges.map Prod.fst) (hx : a.Alive x) (hy : a.Alive y) :
    ∃ s', s.addEdge e x y k = some s' ∧ GInv s' ((GOp.addEdge e x y k).apply a).ga ∧
      s'.freed = s.freed := by
  have h1 := h.o.newNode (n := e) he
  obtain ⟨O', e1, _, hO⟩ := h1.linkFront (l := x) (n := e) hx (.inl rfl)
    (fun j hj => he (h.o.mem j e hj))
  have h2 := h.i.newNode (n := e) he
  obtain ⟨I', e2, _, hI⟩ := h2.linkFront (l := y) (n := e) hy (.inl rfl)
    (fun j hj => he (h.i.mem j e hj))
  refine ⟨{ s with O := O', I := I', ec := fset s.ec e ⟨x, y, k⟩ }, ?_, ⟨h.n, ?_, ?_, ?_, ?_⟩, rfl⟩
  · unfold GH.addEdge; rw [e1, Option.bind_some, e2]; rfl
  · have : ((GOp.addEdge e x y k).apply a).ga.O =
        (LOp.linkFront x e).apply ((LOp.newNode e).apply a.ga.O) := by
      show ({ seq := _, lists := _, nodes := _ } : Seqs) = { seq := _, lists := _, nodes := _ }
      congr 1
      · funext j
        show (((e, (⟨x, y, k⟩ : Edge)) :: a.edges).filter (fun p => p.2.src = j)).map Prod.fst =
          fset a.ga.outs x (e :: a.ga.outs x) j
        by_cases hj : j = x
        · rw [hj, fset_same, List.filter_cons_of_pos (by simp)]; rfl
        · rw [fset_other _ _ hj, List.filter_cons_of_neg (by simpa using fun h => hj h.symm)]; rfl
      · funext j
        show (j ∈ ((e, (⟨x, y, k⟩ : Edge)) :: a.edges).map Prod.fst) = _
        rw [List.map_cons, List.mem_cons]; rfl
    rw [this]; exact hO
  · have : ((GOp.addEdge e x y k).apply a).ga.I =
        (LOp.linkFront y e).apply ((LOp.newNode e).apply a.ga.I) := by
      show ({ seq := _, lists := _, nodes := _ } : Seqs) = { seq := _, lists := _, nodes := _ }
      congr 1
      · funext j
        show (((e, (⟨x, y, k⟩ : Edge)) :: a.edges).filter (fun p => p.2.tgt = j)).map Prod.fst =
          fset a.ga.ins y (e :: a.ga.ins y) j
        by_cases hj : j = y
        · rw [hj, fset_same, List.filter_cons_of_pos (by simp)]; rfl
        · rw [fset_other _ _ hj, List.filter_cons_of_neg (by simpa using fun h => hj h.symm)]; rfl
      · funext j
        show (j ∈ ((e, (⟨x, y, k⟩ : Edge)) :: a.edges).map Prod.fst) = _
        rw [List.map_cons, List.mem_cons]; rfl
    rw [this]; exact hI
  · intro p hp
    rcases List.mem_cons.1 (show p ∈ (e, (⟨x, y, k⟩ : Edge)) :: a.edges from hp) with rfl | hp'
    · exact fset_same _ _ _
    · show fset s.ec e _ p.1 = _
      rw [fset_other _ _ (fun hh : p.1 = e => he (hh ▸ List.mem_map_of_mem hp'))]
      exact h.ec p hp'
  · show (((e, (⟨x, y, k⟩ : Edge)) :: a.edges).map Prod.fst).Nodup
    rw [List.map_cons]
    exact List.nodup_cons.2 ⟨he, h.nodup⟩

theorem move_alive {s : GH} {a : Graphs} (h : GInv s a.ga) {g m : Nat} (hg : ¬ a.graphs g)
    (hm : a.graphs m) : ((GOp.moveGraph g m).apply a).Alive = a.Alive := by
  have hgm : g ≠ m := by rintro rfl; exact hg hm
  funext x
  apply propext
  show (∃ k, x ∈ fset (fset a.seq g (a.seq m)) m [] k) ↔ ∃ k, x ∈ a.seq k
  constructor
  · rintro ⟨k, hk⟩
    unfold fset at hk
    split at hk
    · cases hk
    · split at hk
      · exact ⟨m, hk⟩
      · exact ⟨k, hk⟩
  · rintro ⟨k, hk⟩
    by_cases h1 : k = m
    · exact ⟨g, by rw [fset_other _ _ hgm, fset_same, ← h1]; exact hk⟩
    · have h2 : k ≠ g := by
        rintro rfl
        have : a.seq k = [] := h.n.dead k hg
        rw [this] at hk; cases hk
      exact ⟨k, by rw [fset_other _ _ h1, fset_other _ _ h2]; exact hk⟩

theorem GInv.moveGraph {s : GH} {a : Graphs} (h : GInv s a.ga) {g m : Nat} (hg : ¬ a.graphs g)
    (hm : a.graphs m) :
    ∃ s', s.moveConstruct g m = some s' ∧ GInv s' ((GOp.moveGraph g m).apply a).ga ∧
      s'.freed = s.freed := by
  obtain ⟨N', e, hN⟩ := h.n.moveList (l := g) (m := m) hg hm
  have hal := move_alive h hg hm
  refine ⟨{ s with N := N' }, by unfold GH.moveConstruct; rw [e]; rfl, ⟨?_, ?_, ?_, h.ec, h.nodup⟩, rfl⟩
  · show LInv N' { seq := _, lists := _, nodes := ((GOp.moveGraph g m).apply a).Alive }
    rw [hal]; exact hN
  · show LInv s.O { seq := _, lists := ((GOp.moveGraph g m).apply a).Alive, nodes := _ }
    rw [hal]; exact h.o
  · show LInv s.I { seq := _, lists := ((GOp.moveGraph g m).apply a).Alive, nodes := _ }
    rw [hal]; exact h.i

theorem GInv.init : GInv GH.empty Graphs.init.ga := by
  have : Graphs.init.ga.N = Seqs.init := by
    show ({ seq := _, lists := _, nodes := _ } : Seqs) = { seq := _, lists := _, nodes := _ }
    congr 1; funext n; simp [Graphs.ga, Graphs.init]
  have h2 : Graphs.init.ga.O = Seqs.init := by
    show ({ seq := _, lists := _, nodes := _ } : Seqs) = { seq := _, lists := _, nodes := _ }
    congr 1 <;> funext n <;> simp [Graphs.ga, Graphs.init, Graphs.Alive]
  have h3 : Graphs.init.ga.I = Seqs.init := by
    show ({ seq := _, lists := _, nodes := _ } : Seqs) = { seq := _, lists := _, nodes := _ }
    congr 1 <;> funext n <;> simp [Graphs.ga, Graphs.init, Graphs.Alive]
  refine ⟨this ▸ LInv.init, h2 ▸ LInv.init, h3 ▸ LInv.init, ?_, ?_⟩
  · intro p hp; cases hp
  · exact List.nodup_nil

theorem GInv.op {s : GH} {a : Graphs} (h : GInv s a.ga) {fuel : Nat} (o : GOp) (hp : o.Pre a)
    (hf1 : ∀ g, (a.seq g).length < fuel) (hf2 : a.edges.length < fuel) :
    ∃ s' new, s.op fuel o = some s' ∧ GInv s' (o.apply a).ga ∧ s'.freed = s.freed ++ new ∧
      new.Perm (o.frees a) := by
  have hnone : ∀ o : GOp, o.gone a = [] → o.frees a = [] := by
    intro o ho
    have : a.edges.filter (touches []) = [] := List.filter_eq_nil_iff.2 (by simp [touches])
    unfold GOp.frees; rw [ho, this]; rfl
  cases o with
  | newGraph g => exact ⟨_, [], rfl, h.newGraph hp, by simp [GH.newGraph], by rw [hnone _ rfl]⟩
  | emplace g n =>
    obtain ⟨s', e, hI, hl⟩ := h.emplace hp.1 hp.2
    exact ⟨s', [], e, hI, by simp [hl], by rw [hnone _ rfl]⟩
  | addEdge e x y k =>
    obtain ⟨s', e, hI, hl⟩ := h.addEdge (k := k) hp.1 hp.2.1 hp.2.2
    exact ⟨s', [], e, hI, by simp [hl], by rw [hnone _ rfl]⟩
  | clearIf g f => exact h.clearIf hp f (hf1 g) hf2
  | moveGraph g m =>
    obtain ⟨s', e, hI, hl⟩ := h.moveGraph hp.1 hp.2
    exact ⟨s', [], e, hI, by simp [hl], by rw [hnone _ rfl]⟩
  | destroyGraph g => exact h.destroyGraph hp (hf1 g) hf2

theorem gapply_length (a : Graphs) (o : GOp) (n : Nat) (h : ∀ g, (a.seq g).length ≤ n)
    (h2 : a.edges.length ≤ n) :
    (∀ g, ((o.apply a).seq g).length ≤ n + 1) ∧ (o.apply a).edges.length ≤ n + 1 := by
  have hle : ∀ g, (a.seq g).length ≤ n + 1 := fun g => Nat.le_succ_of_le (h g)
  have hfil : ∀ (p : Nat → Bool) l, ((a.seq l).filter p).length ≤ n + 1 := fun p l =>
    Nat.le_trans (List.length_filter_le p _) (hle l)
  have hfe : ∀ p, (a.edges.filter p).length ≤ n + 1 := fun p =>
    Nat.le_trans (List.length_filter_le p _) (Nat.le_succ_of_le h2)
  cases o with
  | newGraph g =>
    refine ⟨fun k => ?_, Nat.le_succ_of_le h2⟩
    show (fset a.seq g [] k).length ≤ _; unfold fset; split
    · simp
    · exact hle k
  | emplace g n =>
    refine ⟨fun k => ?_, Nat.le_succ_of_le h2⟩
    show (fset a.seq g _ k).length ≤ _; unfold fset; split
    · simpa using h g
    · exact hle k
  | addEdge e x y k => exact ⟨hle, by show (_ :: a.edges).length ≤ _; simpa using h2⟩
  | clearIf g f =>
    refine ⟨fun k => ?_, hfe _⟩
    show (fset a.seq g _ k).length ≤ _; unfold fset; split
    · exact hfil _ g
    · exact hle k
  | moveGraph g m =>
    refine ⟨fun k => ?_, Nat.le_succ_of_le h2⟩
    show (fset (fset a.seq g _) m _ k).length ≤ _
    unfold fset
    split
    · simp
    · split
      · exact hle m
      · exact hle k
  | destroyGraph g =>
    refine ⟨fun k => ?_, hfe _⟩
    show (fset a.seq g _ k).length ≤ _; unfold fset; split
    · simp
    · exact hle k

theorem GInv.ops {fuel : Nat} : ∀ (os : List GOp) (s : GH) (a : Graphs) (n : Nat), GInv s a.ga →
    GOk a os → (∀ l, (a.seq l).length ≤ n) → a.edges.length ≤ n → n + os.length < fuel →
    ∃ s', s.ops fuel os = some s' ∧ GInv s' (GOp.run a os).ga ∧
      (∀ l, ((GOp.run a os).seq l).length ≤ n + os.length) ∧
      (GOp.run a os).edges.length ≤ n + os.length := by
  intro os
  induction os with
  | nil => intro s a n h _ h1 h2 _; exact ⟨s, rfl, h, h1, h2⟩
  | cons o os ih =>
    intro s a n h hok hn hn2 hf
    rw [List.length_cons] at hf
    obtain ⟨s1, _, e1, h1, _⟩ := h.op (fuel := fuel) o hok.1 (fun l => by have := hn l; omega) (by omega)
    obtain ⟨g1, g2⟩ := gapply_length a o n hn hn2
    obtain ⟨s2, e2, h2, k1, k2⟩ := ih s1 (o.apply a) (n + 1) h1 hok.2 g1 g2 (by omega)
    refine ⟨s2, ?_, h2, fun l => ?_, ?_⟩
    · show (s.op fuel o).bind _ = _
      rw [e1]; exact e2
    · have := k1 l
      rw [List.length_cons]
      show ((GOp.run (o.apply a) os).seq l).length ≤ _
      omega
    · rw [List.length_cons]
      show (GOp.run (o.apply a) os).edges.length ≤ _
      omega

theorem GInv.nodes {s : GH} {a : Graphs} (h : GInv s a.ga) {g fuel : Nat} (hg : a.graphs g)
    (hf : (a.seq g).length ≤ fuel) : s.nodes fuel g = some (a.seq g) := h.n.toList (l := g) hg hf

theorem map_ec {s : GH} {l m : List (Nat × Edge)} (h : ∀ p ∈ l, s.ec p.1 = p.2)
    (hm : ∀ p ∈ m, p ∈ l) : (m.map Prod.fst).map s.ec = m.map Prod.snd := by
  rw [List.map_map]
  apply List.map_congr_left
  intro p hp
  exact h p (hm p hp)

theorem GInv.outEdges {s : GH} {a : Graphs} (h : GInv s a.ga) {n fuel : Nat} (hn : a.Alive n)
    (hf : a.edges.length ≤ fuel) :
    s.outEdges fuel n = some ((a.edges.map Prod.snd).filter (fun e => e.src = n)) := by
  unfold GH.outEdges
  rw [h.o.toList (l := n) hn (fuel := fuel) (by
    show ((a.edges.filter _).map _).length ≤ _
    rw [List.length_map]; exact Nat.le_trans (List.length_filter_le _ _) hf), Option.map_some,
    List.filter_map]
  congr 1
  exact map_ec (m := a.edges.filter _) h.ec (fun p hp => (List.mem_filter.1 hp).1)

theorem GInv.inEdges {s : GH} {a : Graphs} (h : GInv s a.ga) {n fuel : Nat} (hn : a.Alive n)
    (hf : a.edges.length ≤ fuel) :
    s.inEdges fuel n = some ((a.edges.map Prod.snd).filter (fun e => e.tgt = n)) := by
  unfold GH.inEdges
  rw [h.i.toList (l := n) hn (fuel := fuel) (by
    show ((a.edges.filter _).map _).length ≤ _
    rw [List.length_map]; exact Nat.le_trans (List.length_filter_le _ _) hf), Option.map_some,
    List.filter_map]
  congr 1
  exact map_ec (m := a.edges.filter _) h.ec (fun p hp => (List.mem_filter.1 hp).1)

end Joque
