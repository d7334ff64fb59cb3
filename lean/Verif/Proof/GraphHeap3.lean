import Verif.Proof.GraphHeap2
import Mathlib.Data.List.Nodup

namespace Joque

/-! ## allocation balance -/

open Classical in
/-- 1 if the object exists -/
noncomputable def Graphs.num (a : Graphs) (x : Obj) : Nat := if a.Exists x then 1 else 0

theorem num_pos {a : Graphs} {x : Obj} (h : a.Exists x) : a.num x = 1 := by
  unfold Graphs.num; rw [if_pos h]

theorem num_neg {a : Graphs} {x : Obj} (h : ¬ a.Exists x) : a.num x = 0 := by
  unfold Graphs.num; rw [if_neg h]

theorem num_congr {a b : Graphs} {x : Obj} (h : a.Exists x ↔ b.Exists x) : a.num x = b.num x := by
  by_cases hb : b.Exists x
  · rw [num_pos hb, num_pos (h.2 hb)]
  · rw [num_neg hb, num_neg (fun ha => hb (h.1 ha))]

theorem count_le_one_of_nodup {α : Type} [DecidableEq α] {l : List α} (h : l.Nodup) (x : α) :
    l.count x = if x ∈ l then 1 else 0 := by
  split
  · rename_i hx; exact List.count_eq_one_of_mem h hx
  · rename_i hx; exact List.count_eq_zero_of_not_mem hx

theorem frees_nodup {s : GH} {a : Graphs} (h : GInv s a.ga) (o : GOp) : (o.frees a).Nodup := by
  have hg : (o.gone a).Nodup := by
    cases o with
    | clearIf g f => exact (h.n.nodup g).filter _
    | destroyGraph g => exact h.n.nodup g
    | _ => exact List.nodup_nil
  unfold GOp.frees
  rw [List.nodup_append]
  refine ⟨hg.map (fun a b h => by cases h; rfl), ?_, ?_⟩
  · have : ((a.edges.filter (touches (o.gone a))).map Prod.fst).Nodup :=
      (List.filter_sublist.map _).nodup h.nodup
    have h2 := this.map (f := Obj.edge) (fun a b h => by cases h; rfl)
    rw [List.map_map] at h2
    exact h2
  · intro x hx y hy
    obtain ⟨n, _, rfl⟩ := List.mem_map.1 hx
    obtain ⟨p, _, rfl⟩ := List.mem_map.1 hy
    simp

theorem mem_frees_node {a : Graphs} {o : GOp} {n : Nat} : Obj.node n ∈ o.frees a ↔ n ∈ o.gone a := by
  simp [GOp.frees]

theorem mem_frees_edge {a : Graphs} {o : GOp} {e : Nat} :
    Obj.edge e ∈ o.frees a ↔ ∃ p ∈ a.edges, touches (o.gone a) p = true ∧ p.1 = e := by
  simp [GOp.frees, and_assoc]

theorem touches_iff {ns : List Nat} {p : Nat × Edge} :
    touches ns p = true ↔ p.2.src ∈ ns ∨ p.2.tgt ∈ ns := by
  unfold touches
  rw [Bool.or_eq_true, decide_eq_true_iff, decide_eq_true_iff]

theorem fst_inj {l : List (Nat × Edge)} (h : (l.map Prod.fst).Nodup) {p q : Nat × Edge} (hp : p ∈ l)
    (hq : q ∈ l) (e : p.1 = q.1) : p = q := by
  induction l with
  | nil => cases hp
  | cons x l ih =>
    rw [List.map_cons, List.nodup_cons] at h
    rcases List.mem_cons.1 hp with h1 | h1
    · rcases List.mem_cons.1 hq with h2 | h2
      · rw [h1, h2]
      · exact absurd (by rw [← h1, e]; exact List.mem_map_of_mem h2) h.1
    · rcases List.mem_cons.1 hq with h2 | h2
      · exact absurd (by rw [← h2, ← e]; exact List.mem_map_of_mem h1) h.1
      · exact ih h.2 h1 h2

/-- removal: an object exists iff it existed and is not freed -/
theorem exists_remove {s : GH} {a : Graphs} (h : GInv s a.ga) {o : GOp}
    (ho : (∃ g f, o = .clearIf g f) ∨ ∃ g, o = .destroyGraph g) (x : Obj) :
    ((o.apply a).Exists x ↔ a.Exists x ∧ x ∉ o.frees a) ∧ (x ∈ o.frees a → a.Exists x) := by
  have hedge : ∀ e, (e ∈ (a.edges.filter (fun p => !touches (o.gone a) p)).map Prod.fst ↔
      e ∈ a.edges.map Prod.fst ∧ Obj.edge e ∉ o.frees a) ∧
      (Obj.edge e ∈ o.frees a → e ∈ a.edges.map Prod.fst) := by
    intro e
    rw [mem_frees_edge]
    constructor
    · simp only [List.mem_map, List.mem_filter, Bool.not_eq_true']
      constructor
      · rintro ⟨p, ⟨h1, h2⟩, rfl⟩
        refine ⟨⟨p, h1, rfl⟩, ?_⟩
        rintro ⟨q, hq, h3, h4⟩
        rw [fst_inj h.nodup hq h1 h4, h2] at h3
        cases h3
      · rintro ⟨⟨p, h1, rfl⟩, h2⟩
        refine ⟨p, ⟨h1, ?_⟩, rfl⟩
        cases ht : touches (o.gone a) p with
        | false => rfl
        | true => exact absurd ⟨p, h1, ht, rfl⟩ h2
    · rintro ⟨p, h1, _, rfl⟩; exact List.mem_map_of_mem h1
  rcases ho with ⟨g, f, rfl⟩ | ⟨g, rfl⟩
  · cases x with
    | edge e => exact hedge e
    | node n =>
      rw [mem_frees_node]
      show ((∃ k, n ∈ fset a.seq g ((a.seq g).filter (fun n => !f n)) k) ↔
        (∃ k, n ∈ a.seq k) ∧ n ∉ (a.seq g).filter f) ∧ (n ∈ (a.seq g).filter f → ∃ k, n ∈ a.seq k)
      refine ⟨⟨?_, ?_⟩, fun hn => ⟨g, (List.mem_filter.1 hn).1⟩⟩
      · rintro ⟨k, hk⟩
        by_cases hkg : k = g
        · rw [hkg, fset_same] at hk
          obtain ⟨h1, h2⟩ := List.mem_filter.1 hk
          refine ⟨⟨g, h1⟩, fun h3 => ?_⟩
          rw [(List.mem_filter.1 h3).2] at h2
          cases h2
        · rw [fset_other _ _ hkg] at hk
          exact ⟨⟨k, hk⟩, fun h3 => hkg (h.n.disj k g n hk (List.mem_filter.1 h3).1)⟩
      · rintro ⟨⟨k, hk⟩, h2⟩
        refine ⟨k, ?_⟩
        by_cases hkg : k = g
        · rw [hkg, fset_same]
          rw [hkg] at hk
          refine List.mem_filter.2 ⟨hk, ?_⟩
          cases hf : f n with
          | false => rfl
          | true => exact absurd (List.mem_filter.2 ⟨hk, hf⟩) h2
        · rw [fset_other _ _ hkg]; exact hk
  · cases x with
    | edge e => exact hedge e
    | node n =>
      rw [mem_frees_node]
      show ((∃ k, n ∈ fset a.seq g [] k) ↔ (∃ k, n ∈ a.seq k) ∧ n ∉ a.seq g) ∧
        (n ∈ a.seq g → ∃ k, n ∈ a.seq k)
      refine ⟨⟨?_, ?_⟩, fun hn => ⟨g, hn⟩⟩
      · rintro ⟨k, hk⟩
        by_cases hkg : k = g
        · rw [hkg, fset_same] at hk; cases hk
        · rw [fset_other _ _ hkg] at hk
          exact ⟨⟨k, hk⟩, fun h3 => hkg (h.n.disj k g n hk h3)⟩
      · rintro ⟨⟨k, hk⟩, h2⟩
        refine ⟨k, ?_⟩
        rw [fset_other _ _ (by rintro rfl; exact h2 hk)]
        exact hk

theorem frees_nil {a : Graphs} {o : GOp} (ho : o.gone a = []) : o.frees a = [] := by
  have : a.edges.filter (touches []) = [] := List.filter_eq_nil_iff.2 (by simp [touches])
  unfold GOp.frees; rw [ho, this]; rfl

theorem balance_op {s : GH} {a : Graphs} (h : GInv s a.ga) (o : GOp) (hp : o.Pre a) (x : Obj) :
    a.num x + o.creates.count x = (o.frees a).count x + (o.apply a).num x := by
  have hremove : ((∃ g f, o = .clearIf g f) ∨ ∃ g, o = .destroyGraph g) → o.creates = [] →
      a.num x + o.creates.count x = (o.frees a).count x + (o.apply a).num x := by
    intro ho hc
    obtain ⟨h1, h2⟩ := exists_remove h ho x
    rw [hc, count_le_one_of_nodup (frees_nodup h o)]
    by_cases hx : x ∈ o.frees a
    · rw [if_pos hx, num_pos (h2 hx), num_neg (fun hh => (h1.1 hh).2 hx)]; rfl
    · rw [if_neg hx, num_congr (b := a) (a := o.apply a) ⟨fun hh => (h1.1 hh).1, fun hh => h1.2 ⟨hh, hx⟩⟩]
      simp
  cases o with
  | newGraph g =>
    rw [frees_nil rfl]
    have : (GOp.newGraph g).creates.count x = 0 := rfl
    rw [this, List.count_nil]
    have hs : fset a.seq g [] = a.seq := by
      funext k; unfold fset; split
      · rename_i e; rw [e]; exact (h.n.dead g hp).symm
      · rfl
    rw [num_congr (a := a) (b := (GOp.newGraph g).apply a)]
    · omega
    · cases x with
      | edge e => exact Iff.rfl
      | node n => show (∃ k, _) ↔ ∃ k, n ∈ fset a.seq g [] k; rw [hs]
  | emplace g n =>
    rw [frees_nil rfl, List.count_nil]
    show _ + [Obj.node n].count x = _
    by_cases hx : x = .node n
    · subst hx
      rw [num_neg (a := a) (x := .node n) hp.2, num_pos (a := (GOp.emplace g n).apply a) (x := .node n)
        (show ∃ k, n ∈ fset a.seq g _ k from ⟨g, by rw [fset_same]; simp⟩)]
      simp
    · rw [num_congr (a := a) (b := (GOp.emplace g n).apply a)]
      · rw [List.count_cons_of_ne (fun h => hx h.symm)]; simp
      · cases x with
        | edge e => exact Iff.rfl
        | node m =>
          have hmn : m ≠ n := fun h => hx (by rw [h])
          show (∃ k, m ∈ a.seq k) ↔ ∃ k, m ∈ fset a.seq g (n :: a.seq g) k
          constructor
          · rintro ⟨k, hk⟩
            refine ⟨k, ?_⟩
            unfold fset; split
            · rename_i e; rw [← e]; exact List.mem_cons_of_mem _ hk
            · exact hk
          · rintro ⟨k, hk⟩
            unfold fset at hk; split at hk
            · rcases List.mem_cons.1 hk with h1 | h1
              · exact absurd h1 hmn
              · exact ⟨g, h1⟩
            · exact ⟨k, hk⟩
  | addEdge e u v k =>
    rw [frees_nil rfl, List.count_nil]
    show _ + [Obj.edge e].count x = _
    by_cases hx : x = .edge e
    · subst hx
      rw [num_neg (a := a) (x := .edge e) hp.1, num_pos (a := (GOp.addEdge e u v k).apply a) (x := .edge e)
        (show e ∈ ((e, _) :: a.edges).map Prod.fst by simp)]
      simp
    · rw [num_congr (a := a) (b := (GOp.addEdge e u v k).apply a)]
      · rw [List.count_cons_of_ne (fun h => hx h.symm)]; simp
      · cases x with
        | node m => exact Iff.rfl
        | edge f =>
          have hfe : f ≠ e := fun h => hx (by rw [h])
          show f ∈ a.edges.map Prod.fst ↔ f ∈ ((e, _) :: a.edges).map Prod.fst
          rw [List.map_cons, List.mem_cons]
          exact ⟨.inr, fun h => h.resolve_left hfe⟩
  | clearIf g f => exact hremove (.inl ⟨g, f, rfl⟩) rfl
  | moveGraph g m =>
    rw [frees_nil rfl]
    have : (GOp.moveGraph g m).creates.count x = 0 := rfl
    rw [this, List.count_nil, num_congr (a := a) (b := (GOp.moveGraph g m).apply a)]
    · omega
    · cases x with
      | edge e => exact Iff.rfl
      | node n =>
        show a.Alive n ↔ ((GOp.moveGraph g m).apply a).Alive n
        rw [move_alive h hp.1 hp.2]
  | destroyGraph g => exact hremove (.inr ⟨g, rfl⟩) rfl

theorem balance_ops {fuel : Nat} : ∀ (os : List GOp) (s : GH) (a : Graphs) (n : Nat), GInv s a.ga →
    GOk a os → (∀ l, (a.seq l).length ≤ n) → a.edges.length ≤ n → n + os.length < fuel →
    ∀ s', s.ops fuel os = some s' → ∀ x,
      s.freed.count x + a.num x + (os.flatMap GOp.creates).count x
        = s'.freed.count x + (GOp.run a os).num x := by
  intro os
  induction os with
  | nil => intro s a n _ _ _ _ _ s' e x; cases e; rfl
  | cons o os ih =>
    intro s a n h hok hn hn2 hf s' e x
    rw [List.length_cons] at hf
    obtain ⟨s1, new, e1, h1, hfr, hperm⟩ :=
      h.op (fuel := fuel) o hok.1 (fun l => by have := hn l; omega) (by omega)
    obtain ⟨g1, g2⟩ := gapply_length a o n hn hn2
    replace e : (s.op fuel o).bind (GH.ops fuel os) = some s' := e
    rw [e1, Option.bind_some] at e
    have := ih s1 (o.apply a) (n + 1) h1 hok.2 g1 g2 (by omega) s' e x
    have hb := balance_op h o hok.1 x
    rw [hfr, List.count_append, hperm.count_eq] at this
    rw [List.flatMap_cons, List.count_append]
    show _ = _ + (GOp.run (o.apply a) os).num x
    omega

/-! ## move assignment -/

theorem LInv.assign {s : LS} {a : Seqs} (h : LInv s a) {l m : Nat} (hl : a.lists l)
    (hm : a.lists m) (hlm : l ≠ m) :
    ∃ s', s.moveAssign (.head l) (.head m) = some s' ∧ s'.live = s.live ∧
      ∀ k, a.lists k → Chain s' (.head k) (fset (fset a.seq l (a.seq m)) m [] k) := by
  obtain ⟨hx1, hx2⟩ := h.nx_live hm
  obtain ⟨s', e1, e2, e3, e4⟩ := moveAssign_eq (s := s) (t := .head l) (o := .head m)
    (by simpa using hlm) ((h.liveH l).2 hl) ((h.liveH m).2 hm) (h.chain m hm).2 hx2
    (by rw [hx1]; cases a.seq m <;> simp [hd])
  refine ⟨s', e1, e2, fun k hk => ?_⟩
  by_cases h1 : k = m
  · subst h1
    rw [fset_same]
    show s'.nx _ = _
    rw [e3, if_neg (by simpa using hlm.symm), if_pos rfl]
  · rw [fset_other _ _ h1]
    by_cases h2 : k = l
    · subst h2
      rw [fset_same]
      have cm := (h.chain m hm).1
      have hnd := h.nodup m
      cases hs : a.seq m with
      | nil => show s'.nx _ = _; rw [e3, if_pos rfl, hx1, hs]; rfl
      | cons x ys =>
        rw [hs] at cm hnd
        have hnd' := List.nodup_cons.1 hnd
        refine ⟨by rw [e3, if_pos rfl, hx1, hs]; rfl,
          by rw [e4, if_pos ⟨by simp, by rw [hx1, hs]; rfl⟩], cm.2.2.frame ?_ ?_ ?_⟩
        · rw [e3, if_neg (by simp), if_neg (by simp)]
        · intro z _; rw [e3, if_neg (by simp), if_neg (by simp)]
        · intro z hz
          rw [e4, if_neg, if_neg (by simp)]
          rintro ⟨_, e⟩
          rw [hx1, hs] at e
          simp only [hd, Ptr.node.injEq] at e
          exact hnd'.1 (e ▸ hz)
    · rw [fset_other _ _ h2]
      refine (h.chain k hk).1.frame ?_ ?_ ?_
      · rw [e3, if_neg (by simpa using h2), if_neg (by simpa using h1)]
      · intro z _; rw [e3, if_neg (by simp), if_neg (by simp)]
      · intro z hz
        rw [e4, if_neg, if_neg (by simp)]
        rintro ⟨_, e⟩
        rw [hx1] at e
        cases hs : a.seq m with
        | nil => rw [hs] at e; cases e
        | cons x ys =>
          rw [hs] at e
          simp only [hd, Ptr.node.injEq] at e
          exact h1 (h.disj k m z hz (by rw [hs, e]; simp))

/-- into an empty list, nothing is lost -/
theorem LInv.assignEmpty {s : LS} {a : Seqs} (h : LInv s a) {l m : Nat} (hl : a.lists l)
    (hm : a.lists m) (hlm : l ≠ m) (he : a.seq l = []) :
    ∃ s', s.moveAssign (.head l) (.head m) = some s' ∧
      LInv s' { a with seq := fset (fset a.seq l (a.seq m)) m [] } := by
  obtain ⟨hx1, hx2⟩ := h.nx_live hm
  obtain ⟨s', e1, e2, e3, e4⟩ := moveAssign_eq (s := s) (t := .head l) (o := .head m)
    (by simpa using hlm) ((h.liveH l).2 hl) ((h.liveH m).2 hm) (h.chain m hm).2 hx2
    (by rw [hx1]; cases a.seq m <;> simp [hd])
  obtain ⟨s'', e1', _, hch⟩ := h.assign hl hm hlm
  rw [e1] at e1'
  cases e1'
  have hmem : ∀ k x, x ∈ fset (fset a.seq l (a.seq m)) m [] k →
      ∃ k', x ∈ a.seq k' ∧ (k = l ∧ k' = m ∨ k = k' ∧ k ≠ m) := by
    intro k x hx
    by_cases h1 : k = m
    · rw [h1, fset_same] at hx; cases hx
    · rw [fset_other _ _ h1] at hx
      by_cases h2 : k = l
      · rw [h2, fset_same] at hx; exact ⟨m, hx, .inl ⟨h2, rfl⟩⟩
      · rw [fset_other _ _ h2] at hx; exact ⟨k, hx, .inr ⟨rfl, h1⟩⟩
  refine ⟨s', e1, fun k => by rw [e2]; exact h.liveH k, fun n => by rw [e2]; exact h.liveN n,
    fun k hk => ⟨hch k hk, ?_⟩, fun k hk => ?_, fun k x hx => ?_, fun k => ?_,
    fun k k' x hx hx' => ?_, fun n hn hL => ?_⟩
  · rw [e4]
    split
    · rename_i hq
      rw [hx1] at hq
      cases hs : a.seq m <;> rw [hs] at hq <;> simp [hd] at hq
    · split
      · rfl
      · exact (h.chain k hk).2
  · show fset (fset a.seq l (a.seq m)) m [] k = []
    have h1 : k ≠ m := by rintro rfl; exact hk hm
    have h2 : k ≠ l := by rintro rfl; exact hk hl
    rw [fset_other _ _ h1, fset_other _ _ h2]
    exact h.dead k hk
  · obtain ⟨k', hk', _⟩ := hmem k x hx
    exact h.mem k' x hk'
  · show (fset (fset a.seq l (a.seq m)) m [] k).Nodup
    unfold fset; split
    · exact List.nodup_nil
    · split
      · exact h.nodup m
      · exact h.nodup k
  · obtain ⟨j, hj, c⟩ := hmem k x hx
    obtain ⟨j', hj', c'⟩ := hmem k' x hx'
    have hjj := h.disj j j' x hj hj'
    rcases c with ⟨rfl, rfl⟩ | ⟨rfl, hkm⟩
    · rcases c' with ⟨rfl, _⟩ | ⟨rfl, h3⟩
      · rfl
      · exact absurd hjj.symm h3
    · rcases c' with ⟨rfl, rfl⟩ | ⟨rfl, h3⟩
      · exact absurd hjj hkm
      · exact hjj
  · have hL' : a.Loose n := by
      intro k hk
      by_cases h1 : k = l
      · rw [h1, he] at hk; cases hk
      · by_cases h2 : k = m
        · apply hL l
          show n ∈ fset (fset a.seq l (a.seq m)) m [] l
          rw [fset_other _ _ hlm, fset_same, ← h2]; exact hk
        · apply hL k
          show n ∈ fset (fset a.seq l (a.seq m)) m [] k
          rw [fset_other _ _ h2, fset_other _ _ h1]; exact hk
    obtain ⟨h1, h2⟩ := h.loose n hn hL'
    refine ⟨by rw [e3, if_neg (by simp), if_neg (by simp)]; exact h1, ?_⟩
    rw [e4, if_neg, if_neg (by simp)]
    · exact h2
    · rintro ⟨_, e⟩
      rw [hx1] at e
      cases hs : a.seq m with
      | nil => rw [hs] at e; cases e
      | cons x ys =>
        rw [hs] at e
        simp only [hd, Ptr.node.injEq] at e
        exact hL' m (by rw [hs, e]; simp)

end Joque
