import Verif.Proof.IList2

namespace Joque

theorem moveAssign_eq {s : LS} {t o : Ptr} (hne : t ≠ o) (ht : s.live t = true)
    (ho : s.live o = true) (hpv : s.pv o = .null)
    (hn : s.nx o = .null ∨ s.live (s.nx o) = true) (hnt : s.nx o ≠ t) :
    ∃ s', s.moveAssign t o = some s' ∧ s'.live = s.live ∧
      (∀ q, s'.nx q = if q = t then s.nx o else if q = o then .null else s.nx q) ∧
      (∀ q, s'.pv q = if q ≠ .null ∧ q = s.nx o then t
        else if q = t ∨ q = o then .null else s.pv q) := by
  -- the state after the two `exchange`s
  let s1 : LS := { nx := fset (fset s.nx o .null) t (s.nx o), pv := fset (fset s.pv o .null) t .null,
                   live := s.live }
  obtain ⟨s2, e2, l2, n2, p2⟩ := setPv?_eq (s := s1) (p := s.nx o) (v := t) hn
  have hpt : s2.pv t = .null := by
    rw [p2, if_neg (by rintro ⟨_, e⟩; exact hnt e.symm)]
    exact fset_same _ _ _
  refine ⟨s2, ?_, l2, fun q => ?_, fun q => ?_⟩
  · have hs1 : s.moveAssign t o = (s1.setPv? (s.nx o) t).bind fun s =>
        (s.getPv t).bind fun p => (s.getNx t).bind fun n => s.setNx? p n := by
      unfold LS.moveAssign
      rw [if_neg hne]
      simp only [LS.getNx, LS.getPv, LS.setNx, LS.setPv, ho, ht, if_true, Option.bind_some, hpv, s1]
    rw [hs1, e2]
    simp only [Option.bind_some, LS.getPv, LS.getNx, l2, s1, ht, if_true, hpt, LS.setNx?]
  · rw [n2]
    show fset (fset s.nx o .null) t (s.nx o) q = _
    unfold fset; rfl
  · rw [p2]
    by_cases hq : q ≠ .null ∧ q = s.nx o
    · rw [if_pos hq, if_pos hq]
    · rw [if_neg hq, if_neg hq]
      show fset (fset s.pv o .null) t .null q = _
      unfold fset
      by_cases h1 : q = t
      · simp [h1]
      · by_cases h2 : q = o <;> simp [h1, h2]

theorem LInv.moveList {s : LS} {a : Seqs} (h : LInv s a) {l m : Nat} (hl : ¬ a.lists l)
    (hm : a.lists m) :
    ∃ s', s.moveConstruct (.head l) (.head m) = some s' ∧
      LInv s' ((LOp.moveList l m).apply a) := by
  have h0 := h.newList hl
  have hlm : l ≠ m := by rintro rfl; exact hl hm
  have hs : fset a.seq l [] = a.seq := by
    funext x; unfold fset; split
    · rename_i e; rw [e, h.dead l hl]
    · rfl
  have happ : (LOp.newList l).apply a = { a with lists := fun x => x = l ∨ a.lists x } := by
    show ({ a with lists := _, seq := fset a.seq l [] } : Seqs) = _
    rw [hs]
  rw [happ] at h0
  generalize hs0 : s.construct (.head l) = s0 at h0
  have hm0 : ({ a with lists := fun x => x = l ∨ a.lists x } : Seqs).lists m := .inr hm
  obtain ⟨hx1, hx2⟩ := h0.nx_live hm0
  replace hx1 : s0.nx (.head m) = hd (a.seq m) := hx1
  obtain ⟨s', e1, e2, e3, e4⟩ := moveAssign_eq (s := s0) (t := .head l) (o := .head m)
    (by simpa using hlm) ((h0.liveH l).2 (.inl rfl)) ((h0.liveH m).2 hm0) (h0.chain m hm0).2 hx2
    (by rw [hx1]; cases a.seq m <;> simp [hd])
  refine ⟨s', by unfold LS.moveConstruct; rw [hs0]; exact e1, ?_⟩
  have hseqo : ∀ k, k ≠ l → k ≠ m → fset (fset a.seq l (a.seq m)) m [] k = a.seq k := by
    intro k h1 h2; rw [fset_other _ _ h2, fset_other _ _ h1]
  have hseql : fset (fset a.seq l (a.seq m)) m [] l = a.seq m := by
    rw [fset_other _ _ hlm, fset_same]
  have hseqm : fset (fset a.seq l (a.seq m)) m [] m = [] := fset_same _ _ _
  have hfst : ∀ q, q ≠ .null ∧ q = s0.nx (.head m) → ∃ x ys, a.seq m = x :: ys ∧ q = .node x := by
    rintro q ⟨hq, rfl⟩
    rw [hx1] at hq ⊢
    cases hs : a.seq m with
    | nil => rw [hs] at hq; exact absurd rfl hq
    | cons x ys => exact ⟨x, ys, rfl, rfl⟩
  have hmem : ∀ k x, x ∈ fset (fset a.seq l (a.seq m)) m [] k →
      ∃ k', x ∈ a.seq k' ∧ (k = l ∧ k' = m ∨ k = k' ∧ k ≠ m) := by
    intro k x hx
    by_cases h1 : k = m
    · rw [h1, hseqm] at hx; cases hx
    · by_cases h2 : k = l
      · rw [h2, hseql] at hx; exact ⟨m, hx, .inl ⟨h2, rfl⟩⟩
      · rw [hseqo k h2 h1] at hx; exact ⟨k, hx, .inr ⟨rfl, h1⟩⟩
  refine ⟨fun k => by rw [e2]; exact h0.liveH k, fun n => by rw [e2]; exact h0.liveN n,
    fun k hk => ?_, fun k hk => ?_, fun k x hx => ?_, fun k => ?_, fun k k' x hx hx' => ?_,
    fun n hn hL => ?_⟩
  · have hk0 : ({ a with lists := fun x => x = l ∨ a.lists x } : Seqs).lists k := hk
    obtain ⟨c1, c2⟩ := h0.chain k hk0
    refine ⟨?_, ?_⟩
    · show Chain s' _ (fset (fset a.seq l (a.seq m)) m [] k)
      by_cases h1 : k = m
      · subst h1
        rw [hseqm]
        show s'.nx _ = _
        rw [e3, if_neg (by simpa using hlm.symm), if_pos rfl]
      · by_cases h2 : k = l
        · subst h2
          rw [hseql]
          have cm := (h0.chain m hm0).1
          replace cm : Chain s0 (.head m) (a.seq m) := cm
          have hnd := h.nodup m
          cases hs : a.seq m with
          | nil => show s'.nx _ = _; rw [e3, if_pos rfl, hx1, hs]; rfl
          | cons x ys =>
            rw [hs] at cm hnd
            have hnd' := List.nodup_cons.1 hnd
            refine ⟨by rw [e3, if_pos rfl, hx1, hs]; rfl,
              by rw [e4, if_pos ⟨by simp, by rw [hx1, hs]; rfl⟩], cm.2.2.frame ?_ ?_ ?_⟩
            · rw [e3, if_neg (by simp), if_neg (by simp)]
            · intro z _; rw [e3, if_neg (by simp), if_neg (by simp)]
            · intro z hz
              rw [e4, if_neg, if_neg (by simp)]
              rintro ⟨_, e⟩
              rw [hx1, hs] at e
              simp only [hd, Ptr.node.injEq] at e
              exact hnd'.1 (e ▸ hz)
        · rw [hseqo k h2 h1]
          refine Chain.frame (s := s0) c1 ?_ ?_ ?_
          · rw [e3, if_neg (by simpa using h2), if_neg (by simpa using h1)]
          · intro z _; rw [e3, if_neg (by simp), if_neg (by simp)]
          · intro z hz
            rw [e4, if_neg, if_neg (by simp)]
            intro hq
            obtain ⟨x, ys, g1, g2⟩ := hfst _ hq
            cases g2
            exact h1 (h.disj k m z hz (by rw [g1]; simp))
    · rw [e4, if_neg]
      · split
        · rfl
        · exact c2
      · intro hq
        obtain ⟨x, ys, g1, g2⟩ := hfst _ hq
        cases g2
  · have h1 : k ≠ l := fun e => hk (.inl e)
    have h2 : k ≠ m := by rintro rfl; exact hk (.inr hm)
    show fset (fset a.seq l (a.seq m)) m [] k = []
    rw [hseqo k h1 h2]
    exact h.dead k (fun h => hk (.inr h))
  · obtain ⟨k', hx', _⟩ := hmem k x hx
    exact h.mem k' x hx'
  · show (fset (fset a.seq l (a.seq m)) m [] k).Nodup
    by_cases h1 : k = m
    · rw [h1, hseqm]; exact List.nodup_nil
    · by_cases h2 : k = l
      · rw [h2, hseql]; exact h.nodup m
      · rw [hseqo k h2 h1]; exact h.nodup k
  · obtain ⟨j, hj, hj'⟩ := hmem k x hx
    obtain ⟨j', hk, hk'⟩ := hmem k' x hx'
    have := h.disj j j' x hj hk
    subst this
    have hlj : x ∈ a.seq j → j ≠ l := by rintro h1 rfl; exact hl (h.alive h1)
    rcases hj' with ⟨rfl, rfl⟩ | ⟨rfl, h2⟩ <;> rcases hk' with ⟨rfl, h3⟩ | ⟨h3, h4⟩
    · rfl
    · exact absurd h3 h4
    · exact absurd h3 h2
    · exact h3.symm
  · have hLn : a.Loose n := by
      intro k hk
      by_cases h1 : k = m
      · exact hL l (by show n ∈ fset (fset a.seq l (a.seq m)) m [] l; rw [hseql, ← h1]; exact hk)
      · have h2 : k ≠ l := by rintro rfl; exact hl (h.alive hk)
        exact hL k (by show n ∈ fset (fset a.seq l (a.seq m)) m [] k; rw [hseqo k h2 h1]; exact hk)
    obtain ⟨g1, g2⟩ := h0.loose n hn hLn
    refine ⟨by rw [e3, if_neg (by simp), if_neg (by simp)]; exact g1, ?_⟩
    rw [e4, if_neg, if_neg (by simp)]
    · exact g2
    · intro hq
      obtain ⟨x, ys, f1, f2⟩ := hfst _ hq
      cases f2
      exact hLn m (by rw [f1]; simp)

theorem LInv.destroyList {s : LS} {a : Seqs} (h : LInv s a) {l fuel : Nat} (hl : a.lists l)
    (hf : (a.seq l).length < fuel) :
    ∃ s', s.destroyList l fuel = some s' ∧ LInv s' ((LOp.destroyList l).apply a) := by
  let R : LS → List Nat → Prop := fun s xs =>
    ∃ gone, a.seq l = gone ++ xs ∧
      LInv s { a with seq := fset a.seq l xs, nodes := fun x => a.nodes x ∧ x ∉ gone }
  have h0 : R s (a.seq l) := by
    refine ⟨[], rfl, ?_⟩
    have : fset a.seq l (a.seq l) = a.seq := by
      funext x; unfold fset; split
      · rename_i e; rw [e]
      · rfl
    rw [this]
    simpa using h
  obtain ⟨s1, e1, gone, hg, h1⟩ := deleteAll_spec id LS.deleteNode l R
    (fun s xs ⟨g, hg, hI⟩ => by
      show s.getNx _ = _
      rw [LS.getNx, if_pos ((hI.liveH l).2 hl), (hI.nx_live (l := l) hl).1]
      show some (hd (fset a.seq l xs l)) = _
      rw [fset_same])
    (fun s x xs ⟨g, hg, hI⟩ => by
      have hnd : (g ++ x :: xs).Nodup := hg ▸ h.nodup l
      have hxg : x ∉ g := fun hx => (List.nodup_append.1 hnd).2.2 x hx x (by simp) rfl
      have hxs : x ∉ xs := (List.nodup_cons.1 (List.nodup_append.1 hnd).2.1).1
      have hxa : x ∈ a.seq l := by rw [hg]; simp
      obtain ⟨s', e, _, hI'⟩ := hI.deleteNode (x := x) ⟨h.mem l x hxa, hxg⟩
      refine ⟨s', e, g ++ [x], by simpa using hg, ?_⟩
      have hq : (LOp.deleteNode x).apply
          { a with seq := fset a.seq l (x :: xs), nodes := fun y => a.nodes y ∧ y ∉ g } =
          { a with seq := fset a.seq l xs, nodes := fun y => a.nodes y ∧ y ∉ g ++ [x] } := by
        show ({ a with seq := fun k => (fset a.seq l (x :: xs) k).filter (· ≠ x),
                       nodes := fun y => y ≠ x ∧ a.nodes y ∧ y ∉ g } : Seqs) = _
        congr 1
        · funext k
          by_cases hk : k = l
          · rw [hk, fset_same, fset_same, List.filter_cons_of_neg (by simp), filter_ne_self hxs]
          · rw [fset_other _ _ hk, fset_other _ _ hk]
            exact filter_ne_self (fun hx => hk (h.disj k l x hx hxa))
        · funext y
          simp only [List.mem_append, List.mem_singleton, not_or, eq_iff_iff]
          exact ⟨fun ⟨p, q, r⟩ => ⟨q, r, p⟩, fun ⟨q, r, p⟩ => ⟨p, q, r⟩⟩
      rw [hq] at hI'
      exact hI')
    (a.seq l) fuel s h0 hf
  rw [List.append_nil] at hg
  obtain ⟨s2, e2, h2⟩ := h1.destroyHead (l := l) hl (fset_same _ _ _)
  refine ⟨s2, ?_, ?_⟩
  · unfold LS.destroyList; rw [e1]; exact e2
  · rw [← hg] at h2; exact h2

theorem LInv.clearIf {s : LS} {a : Seqs} (h : LInv s a) {l fuel : Nat} (hl : a.lists l)
    (f : Nat → Bool) (hf : (a.seq l).length ≤ fuel) :
    ∃ s', ((s.begin' l).bind fun it => LS.clearIf id LS.deleteNode f fuel it s) = some s' ∧
      LInv s' ((LOp.clearIf l f).apply a) := by
  rw [h.begin' hl]
  -- `pre` kept, `post` to do; `gone` what was removed
  let R : LS → List Nat → List Nat → Prop := fun s pre post =>
    ∃ done, a.seq l = done ++ post ∧ pre = done.filter (fun x => !f x) ∧
      LInv s { a with seq := fset a.seq l (pre ++ post)
                      nodes := fun x => a.nodes x ∧ ¬ (x ∈ done ∧ f x = true) }
  have h0 : R s [] (a.seq l) := by
    refine ⟨[], rfl, rfl, ?_⟩
    have : fset a.seq l ([] ++ a.seq l) = a.seq := by
      funext x; unfold fset; split
      · rename_i e; rw [e]; rfl
      · rfl
    rw [this]
    simpa using h
  obtain ⟨s1, e1, dn, hd1, hd2, h1⟩ := clearIf_spec id LS.deleteNode f R
    (fun s pre x post ⟨d, _, _, hI⟩ => hI.inc (l := l) (pre := pre) (fset_same _ _ _))
    (fun s pre x post ⟨d, hd1, hd2, hI⟩ hfx => by
      have hnd : (d ++ x :: post).Nodup := hd1 ▸ h.nodup l
      have hxd : x ∉ d := fun hx => (List.nodup_append.1 hnd).2.2 x hx x (by simp) rfl
      have hxs : x ∉ post := (List.nodup_cons.1 (List.nodup_append.1 hnd).2.1).1
      have hxa : x ∈ a.seq l := by rw [hd1]; simp
      have hxp : x ∉ pre := by rw [hd2]; exact fun hx => hxd (List.mem_filter.1 hx).1
      obtain ⟨s', e, _, hI'⟩ := hI.deleteNode (x := x) ⟨h.mem l x hxa, fun hx => hxd hx.1⟩
      refine ⟨s', e, d ++ [x], by simpa using hd1, by rw [hd2]; simp [hfx], ?_⟩
      have hq : (LOp.deleteNode x).apply
          { a with seq := fset a.seq l (pre ++ x :: post)
                   nodes := fun y => a.nodes y ∧ ¬ (y ∈ d ∧ f y = true) } =
          { a with seq := fset a.seq l (pre ++ post)
                   nodes := fun y => a.nodes y ∧ ¬ (y ∈ d ++ [x] ∧ f y = true) } := by
        show ({ a with seq := fun k => (fset a.seq l (pre ++ x :: post) k).filter (· ≠ x),
                       nodes := fun y => y ≠ x ∧ a.nodes y ∧ ¬ (y ∈ d ∧ f y = true) } : Seqs) = _
        congr 1
        · funext k
          by_cases hk : k = l
          · rw [hk, fset_same, fset_same, List.filter_append, List.filter_cons_of_neg (by simp),
              filter_ne_self hxs, filter_ne_self hxp]
          · rw [fset_other _ _ hk, fset_other _ _ hk]
            exact filter_ne_self (fun hx => hk (h.disj k l x hx hxa))
        · funext y
          simp only [List.mem_append, List.mem_singleton, eq_iff_iff]
          constructor
          · rintro ⟨p, q, r⟩
            refine ⟨q, ?_⟩
            rintro ⟨h1 | h1, h2⟩
            · exact r ⟨h1, h2⟩
            · exact p h1
          · rintro ⟨q, r⟩
            refine ⟨?_, q, fun h => r ⟨.inl h.1, h.2⟩⟩
            rintro rfl; exact r ⟨.inr rfl, hfx⟩
      rw [hq] at hI'
      exact hI')
    (fun s pre x post ⟨d, hd1, hd2, hI⟩ hfx => by
      refine ⟨d ++ [x], by simpa using hd1, by rw [hd2]; simp [hfx], ?_⟩
      have : (fun y => a.nodes y ∧ ¬ (y ∈ d ++ [x] ∧ f y = true)) =
          (fun y => a.nodes y ∧ ¬ (y ∈ d ∧ f y = true)) := by
        funext y
        simp only [List.mem_append, List.mem_singleton, eq_iff_iff]
        constructor
        · rintro ⟨q, r⟩; exact ⟨q, fun h => r ⟨.inl h.1, h.2⟩⟩
        · rintro ⟨q, r⟩
          refine ⟨q, ?_⟩
          rintro ⟨h1 | h1, h2⟩
          · exact r ⟨h1, h2⟩
          · rw [h1, hfx] at h2; cases h2
      rw [this, List.append_assoc]
      exact hI)
    (a.seq l) fuel [] s h0 hf
  rw [List.append_nil] at hd1
  refine ⟨s1, e1, ?_⟩
  rw [← hd1, List.nil_append, List.append_nil] at h1
  exact h1

/-- every operation of a well-behaved program does what it means -/
theorem LInv.op {s : LS} {a : Seqs} (h : LInv s a) {fuel : Nat} (o : LOp) (hp : o.Pre a)
    (hf : ∀ l, (a.seq l).length < fuel) : ∃ s', s.op fuel o = some s' ∧ LInv s' (o.apply a) := by
  cases o with
  | newList l => exact ⟨_, rfl, h.newList hp⟩
  | newNode n => exact ⟨_, rfl, h.newNode hp⟩
  | emplaceFront l n =>
    have h1 := h.newNode hp.2
    obtain ⟨s', e, _, hI⟩ := h1.linkFront (l := l) (n := n) hp.1 (.inl rfl)
      (fun k hk => hp.2 (h.mem k n hk))
    exact ⟨s', e, hI⟩
  | linkFront l n =>
    obtain ⟨s', e, _, hI⟩ := h.linkFront hp.1 hp.2.1 hp.2.2
    exact ⟨s', e, hI⟩
  | deleteNode n => obtain ⟨s', e, _, hI⟩ := h.deleteNode hp; exact ⟨s', e, hI⟩
  | moveList l m => exact h.moveList hp.1 hp.2
  | clearIf l f => exact h.clearIf hp f (Nat.le_of_lt (hf l))
  | destroyList l => exact h.destroyList hp (hf l)

theorem apply_length (a : Seqs) (o : LOp) (n : Nat) (h : ∀ l, (a.seq l).length ≤ n) :
    ∀ l, ((o.apply a).seq l).length ≤ n + 1 := by
  intro k
  have hfil : ∀ (p : Nat → Bool) l, ((a.seq l).filter p).length ≤ n + 1 := fun p l =>
    Nat.le_trans (List.length_filter_le p _) (Nat.le_succ_of_le (h l))
  cases o with
  | newList l => show (fset a.seq l [] k).length ≤ _; unfold fset; split
                 · simp
                 · exact Nat.le_succ_of_le (h k)
  | newNode n => exact Nat.le_succ_of_le (h k)
  | emplaceFront l n =>
    show (fset a.seq l _ k).length ≤ _; unfold fset; split
    · simpa using h l
    · exact Nat.le_succ_of_le (h k)
  | linkFront l n =>
    show (fset a.seq l _ k).length ≤ _; unfold fset; split
    · simpa using h l
    · exact Nat.le_succ_of_le (h k)
  | deleteNode n => exact hfil _ k
  | moveList l m =>
    show (fset (fset a.seq l _) m _ k).length ≤ _
    unfold fset
    split
    · simp
    · split
      · exact Nat.le_succ_of_le (h m)
      · exact Nat.le_succ_of_le (h k)
  | clearIf l f =>
    show (fset a.seq l _ k).length ≤ _; unfold fset; split
    · exact hfil _ l
    · exact Nat.le_succ_of_le (h k)
  | destroyList l =>
    show (fset a.seq l _ k).length ≤ _; unfold fset; split
    · simp
    · exact Nat.le_succ_of_le (h k)

theorem LInv.ops {fuel : Nat} : ∀ (os : List LOp) (s : LS) (a : Seqs) (n : Nat), LInv s a →
    LOk a os → (∀ l, (a.seq l).length ≤ n) → n + os.length < fuel →
    ∃ s', s.ops fuel os = some s' ∧ LInv s' (LOp.run a os) := by
  intro os
  induction os with
  | nil => intro s a n h _ _ _; exact ⟨s, rfl, h⟩
  | cons o os ih =>
    intro s a n h hok hn hf
    rw [List.length_cons] at hf
    obtain ⟨s1, e1, h1⟩ := h.op (fuel := fuel) o hok.1 (fun l => by have := hn l; omega)
    obtain ⟨s2, e2, h2⟩ := ih s1 (o.apply a) (n + 1) h1 hok.2 (apply_length a o n hn) (by omega)
    refine ⟨s2, ?_, h2⟩
    show (s.op fuel o).bind _ = _
    rw [e1]; exact e2

end Joque
