import Verif.Proof.IList

namespace Joque

theorem setPv?_eq {s : LS} {p v : Ptr} (h : p = .null ∨ s.live p = true) :
    ∃ s', s.setPv? p v = some s' ∧ s'.live = s.live ∧ s'.nx = s.nx ∧
      ∀ q, s'.pv q = if q ≠ .null ∧ q = p then v else s.pv q := by
  unfold LS.setPv?
  by_cases h0 : p = .null
  · rw [if_pos h0]
    refine ⟨s, rfl, rfl, rfl, fun q => ?_⟩
    rw [if_neg]; rintro ⟨h1, h2⟩; exact h1 (h2.trans h0)
  · rw [if_neg h0, LS.setPv, if_pos (h.resolve_left h0)]
    refine ⟨_, rfl, rfl, rfl, fun q => ?_⟩
    by_cases hq : q = p
    · rw [if_pos ⟨hq ▸ h0, hq⟩, hq]; exact fset_same _ _ _
    · rw [if_neg (fun h => hq h.2)]; exact fset_other _ _ hq

theorem setNx?_eq {s : LS} {p v : Ptr} (h : p = .null ∨ s.live p = true) :
    ∃ s', s.setNx? p v = some s' ∧ s'.live = s.live ∧ s'.pv = s.pv ∧
      ∀ q, s'.nx q = if q ≠ .null ∧ q = p then v else s.nx q := by
  unfold LS.setNx?
  by_cases h0 : p = .null
  · rw [if_pos h0]
    refine ⟨s, rfl, rfl, rfl, fun q => ?_⟩
    rw [if_neg]; rintro ⟨h1, h2⟩; exact h1 (h2.trans h0)
  · rw [if_neg h0, LS.setNx, if_pos (h.resolve_left h0)]
    refine ⟨_, rfl, rfl, rfl, fun q => ?_⟩
    by_cases hq : q = p
    · rw [if_pos ⟨hq ▸ h0, hq⟩, hq]; exact fset_same _ _ _
    · rw [if_neg (fun h => hq h.2)]; exact fset_other _ _ hq

theorem destruct_eq {s : LS} {h : Ptr} (hl : s.live h = true)
    (hn : s.nx h = .null ∨ s.live (s.nx h) = true) (hp : s.pv h = .null ∨ s.live (s.pv h) = true)
    (hnh : s.nx h ≠ h) :
    ∃ s', s.destruct h = some s' ∧ s'.live = fset s.live h false ∧
      (∀ q, s'.nx q = if q ≠ .null ∧ q = s.pv h then s.nx h else s.nx q) ∧
      (∀ q, s'.pv q = if q ≠ .null ∧ q = s.nx h then s.pv h else s.pv q) := by
  obtain ⟨s1, e1, l1, n1, p1⟩ := setPv?_eq (v := s.pv h) hn
  have hp1 : s1.pv h = s.pv h := by rw [p1, if_neg]; rintro ⟨_, e⟩; exact hnh e.symm
  have hn1 : s1.nx h = s.nx h := by rw [n1]
  obtain ⟨s2, e2, l2, p2, n2⟩ := setNx?_eq (s := s1) (p := s.pv h) (v := s.nx h)
    (by rw [l1]; exact hp)
  refine ⟨{ s2 with live := fset s2.live h false }, ?_, ?_, ?_, ?_⟩
  · unfold LS.destruct
    simp only [LS.getNx, LS.getPv, hl, if_true, Option.bind_some, e1]
    rw [l1]
    simp only [hl, if_true, Option.bind_some, hp1, hn1, e2]
  · show fset s2.live h false = _; rw [l2, l1]
  · intro q; show s2.nx q = _; rw [n2, n1]
  · intro q; show s2.pv q = _; rw [p2, p1]

theorem filter_ne_split {pre post : List Nat} {x : Nat} (h : (pre ++ x :: post).Nodup) :
    (pre ++ x :: post).filter (· ≠ x) = pre ++ post := by
  have h' := List.nodup_append.1 h
  have h2 := List.nodup_cons.1 h'.2.1
  rw [List.filter_append, List.filter_cons_of_neg (by simp), List.filter_eq_self.2,
    List.filter_eq_self.2]
  · intro y hy; simp only [ne_eq, decide_eq_true_eq]; rintro rfl; exact h2.1 hy
  · intro y hy; simp only [ne_eq, decide_eq_true_eq]; rintro rfl; exact h'.2.2 _ hy _ (by simp) rfl

theorem filter_ne_self {l : List Nat} {x : Nat} (h : x ∉ l) : l.filter (· ≠ x) = l := by
  apply List.filter_eq_self.2
  intro y hy; simp only [ne_eq, decide_eq_true_eq]; rintro rfl; exact h hy

theorem LInv.deleteNode {s : LS} {a : Seqs} (h : LInv s a) {x : Nat} (hx : a.nodes x) :
    ∃ s', s.destruct (.node x) = some s' ∧ s'.live = fset s.live (.node x) false ∧
      LInv s' ((LOp.deleteNode x).apply a) := by
  have hlive := (h.liveN x).2 hx
  have hlx : ∀ s' : LS, s'.live = fset s.live (.node x) false →
      (∀ l, s'.live (.head l) = true ↔ a.lists l) ∧
      (∀ n, s'.live (.node n) = true ↔ n ≠ x ∧ a.nodes n) := by
    intro s' hs'
    refine ⟨fun l => ?_, fun n => ?_⟩
    · rw [hs', fset_other _ _ (by simp), h.liveH]
    · rw [hs']
      by_cases hn : n = x
      · subst hn; simp
      · rw [fset_other _ _ (by simpa using hn), h.liveN]; simp [hn]
  by_cases hin : ∃ l, x ∈ a.seq l
  · obtain ⟨l, hl⟩ := hin
    have hal := h.alive hl
    obtain ⟨pre, post, hsp⟩ := List.append_of_mem hl
    obtain ⟨hc, hv⟩ := h.chain l hal
    have hnd := h.nodup l
    rw [hsp] at hc hnd
    obtain ⟨c1, c2⟩ := hc.split
    have hnx : s.nx (.node x) = hd post := c2.nx_eq
    have hndp := List.nodup_append.1 hnd
    have hxpost := (List.nodup_cons.1 hndp.2.1).1
    have hpn : lastPtr (.head l) pre = .head l ∨ ∃ y ∈ pre, lastPtr (.head l) pre = .node y :=
      lastPtr_mem _ _
    have hpl : s.live (lastPtr (.head l) pre) = true := by
      rcases hpn with e | ⟨y, hy, e⟩
      · rw [e]; exact (h.liveH l).2 hal
      · rw [e]; exact (h.liveN y).2 (h.mem l y (by rw [hsp]; simp [hy]))
    have hp0 : lastPtr (.head l) pre ≠ .null := by
      rcases hpn with e | ⟨y, hy, e⟩ <;> rw [e] <;> simp
    have hnl : hd post = .null ∨ s.live (hd post) = true := by
      cases post with
      | nil => exact .inl rfl
      | cons y ys => exact .inr ((h.liveN y).2 (h.mem l y (by rw [hsp]; simp)))
    obtain ⟨s', e1, e2, e3, e4⟩ := destruct_eq hlive (by rw [hnx]; exact hnl)
      (by rw [c1]; exact .inr hpl)
      (by rw [hnx]; cases post with
        | nil => simp [hd]
        | cons y ys => simp only [hd, ne_eq, Ptr.node.injEq]; rintro rfl; exact hxpost (by simp))
    rw [c1, hnx] at e3 e4
    have e3' : ∀ q, s'.nx q = if q = lastPtr (.head l) pre then hd post else s.nx q := by
      intro q
      rw [e3]
      by_cases hq : q = lastPtr (.head l) pre
      · rw [if_pos hq, if_pos ⟨hq ▸ hp0, hq⟩]
      · rw [if_neg hq, if_neg (fun h => hq h.2)]
    refine ⟨s', e1, e2, (hlx s' e2).1, (hlx s' e2).2, fun m hm => ?_, fun m hm => ?_,
      fun m y hy => ?_, fun m => (h.nodup m).filter _, fun m m' y hy hy' => ?_,
      fun n hn hL => ?_⟩
    · have hpv' : s'.pv (.head m) = .null := by
        rw [e4, if_neg, (h.chain m hm).2]
        rintro ⟨_, e⟩
        cases post <;> simp [hd] at e
      refine ⟨?_, hpv'⟩
      show Chain s' _ ((a.seq m).filter (· ≠ x))
      by_cases hml : m = l
      · subst hml
        rw [hsp, filter_ne_split hnd]
        exact hc.remove hnd (by simp) e3' e4
      · have hxm : x ∉ a.seq m := fun hx' => hml (h.disj m l x hx' hl)
        have hdis : ∀ z ∈ a.seq m, z ∉ pre ++ x :: post := by
          intro z hz hz'
          exact hml (h.disj m l z hz (by rw [hsp]; exact hz'))
        rw [filter_ne_self hxm]
        refine (h.chain m hm).1.frame ?_ ?_ ?_
        · rw [e3', if_neg]
          rcases hpn with e | ⟨y, hy, e⟩ <;> rw [e]
          · simpa using hml
          · simp
        · intro z hz
          rw [e3', if_neg]
          rcases hpn with e | ⟨y, hy, e⟩ <;> rw [e]
          · simp
          · simp only [Ptr.node.injEq]; rintro rfl; exact hdis z hz (by simp [hy])
        · intro z hz
          rw [e4, if_neg]
          rintro ⟨_, e⟩
          cases post with
          | nil => simp [hd] at e
          | cons y ys => simp only [hd, Ptr.node.injEq] at e; exact hdis z hz (by simp [e])
    · show (a.seq m).filter _ = []
      rw [h.dead m hm]; rfl
    · obtain ⟨h1, h2⟩ := List.mem_filter.1 (show y ∈ (a.seq m).filter (· ≠ x) from hy)
      exact ⟨by simpa using h2, h.mem m y h1⟩
    · exact h.disj m m' y (List.mem_filter.1 (show y ∈ (a.seq m).filter (· ≠ x) from hy)).1
        (List.mem_filter.1 (show y ∈ (a.seq m').filter (· ≠ x) from hy')).1
    · obtain ⟨hnx', hn'⟩ : n ≠ x ∧ a.nodes n := hn
      have hLn : a.Loose n := by
        intro k hk
        exact hL k (List.mem_filter.2 ⟨hk, by simpa using hnx'⟩)
      obtain ⟨g1, g2⟩ := h.loose n hn' hLn
      refine ⟨?_, ?_⟩
      · rw [e3', if_neg, g1]
        rcases hpn with e | ⟨y, hy, e⟩ <;> rw [e]
        · simp
        · simp only [Ptr.node.injEq]; rintro rfl; exact hLn l (by rw [hsp]; simp [hy])
      · rw [e4, if_neg, g2]
        rintro ⟨_, e⟩
        cases post with
        | nil => simp [hd] at e
        | cons y ys => simp only [hd, Ptr.node.injEq] at e; exact hLn l (by rw [hsp]; simp [e])
  · have hL : a.Loose x := fun l hl => hin ⟨l, hl⟩
    obtain ⟨g1, g2⟩ := h.loose x hx hL
    obtain ⟨s', e1, e2, e3, e4⟩ := destruct_eq hlive (.inl g1) (.inl g2) (by rw [g1]; simp)
    have e3' : s'.nx = s.nx := by
      funext q; rw [e3, if_neg]; rintro ⟨h1, h2⟩; exact h1 (h2.trans g2)
    have e4' : s'.pv = s.pv := by
      funext q; rw [e4, if_neg]; rintro ⟨h1, h2⟩; exact h1 (h2.trans g1)
    have hseq : ∀ l, (a.seq l).filter (· ≠ x) = a.seq l := fun l => filter_ne_self (hL l)
    have happ : (LOp.deleteNode x).apply a = { a with nodes := fun y => y ≠ x ∧ a.nodes y } := by
      show ({ a with seq := fun l => (a.seq l).filter (· ≠ x), nodes := _ } : Seqs) = _
      congr 1; funext l; exact hseq l
    refine ⟨s', e1, e2, ?_⟩
    rw [happ]
    refine ⟨(hlx s' e2).1, (hlx s' e2).2, fun m hm => ?_, h.dead, fun m y hy => ?_, h.nodup,
      h.disj, fun n hn hLn => ?_⟩
    · rw [e4']
      exact ⟨(h.chain m hm).1.frame (by rw [e3']) (fun _ _ => by rw [e3']) (fun _ _ => by rw [e4']),
        (h.chain m hm).2⟩
    · refine ⟨?_, h.mem m y hy⟩
      rintro rfl; exact hL m hy
    · rw [e3', e4']; exact h.loose n hn.2 hLn

/-- end of lifetime of the header of an empty list -/
theorem LInv.destroyHead {s : LS} {a : Seqs} (h : LInv s a) {l : Nat} (hl : a.lists l)
    (he : a.seq l = []) :
    ∃ s', s.destruct (.head l) = some s' ∧
      LInv s' { a with lists := fun x => x ≠ l ∧ a.lists x } := by
  obtain ⟨c1, c2⟩ := h.chain l hl
  have hn : s.nx (.head l) = .null := by rw [c1.nx_eq, he]; rfl
  obtain ⟨s', e1, e2, e3, e4⟩ := destruct_eq ((h.liveH l).2 hl) (.inl hn) (.inl c2)
    (by rw [hn]; simp)
  have e3' : s'.nx = s.nx := by
    funext q; rw [e3, if_neg]; rintro ⟨h1, h2⟩; exact h1 (h2.trans c2)
  have e4' : s'.pv = s.pv := by
    funext q; rw [e4, if_neg]; rintro ⟨h1, h2⟩; exact h1 (h2.trans hn)
  refine ⟨s', e1, fun m => ?_, fun n => ?_, fun m hm => ?_, fun m hm => ?_, h.mem, h.nodup, h.disj,
    fun n hn hL => ?_⟩
  · rw [e2]
    by_cases hm : m = l
    · subst hm; simp
    · rw [fset_other _ _ (by simpa using hm), h.liveH]; simp [hm]
  · rw [e2, fset_other _ _ (by simp), h.liveN]
  · rw [e4']
    exact ⟨(h.chain m hm.2).1.frame (by rw [e3']) (fun _ _ => by rw [e3']) (fun _ _ => by rw [e4']),
      (h.chain m hm.2).2⟩
  · by_cases hml : m = l
    · rw [hml]; exact he
    · exact h.dead m (fun h => hm ⟨hml, h⟩)
  · rw [e3', e4']; exact h.loose n hn hL

/-! ## loops -/

theorem walk_chain {s : LS} {xs : List Nat} (hlive : ∀ x ∈ xs, s.live (.node x) = true) :
    ∀ {p : Ptr} (_ : Chain s p xs) (fuel : Nat), xs.length ≤ fuel →
      s.walk fuel xs.head? = some xs := by
  induction xs with
  | nil => intro p _ fuel _; cases fuel <;> rfl
  | cons x xs ih =>
    intro p h fuel hf
    cases fuel with
    | zero => simp at hf
    | succ fuel =>
      have hx := hlive x (by simp)
      simp only [List.head?_cons, LS.walk, LS.inc, LS.getNx, hx, if_true, Option.map_some,
        Option.bind_some]
      rw [h.2.2.nx_eq, hd_getNode, ih (fun y hy => hlive y (by simp [hy])) h.2.2 fuel (by simpa using hf)]
      rfl

theorem LInv.begin' {s : LS} {a : Seqs} (h : LInv s a) {l : Nat} (hl : a.lists l) :
    s.begin' l = some (a.seq l).head? := by
  unfold LS.begin'
  rw [LS.getNx, if_pos ((h.liveH l).2 hl), (h.nx_live hl).1, Option.map_some, hd_getNode]

theorem LInv.toList {s : LS} {a : Seqs} (h : LInv s a) {l : Nat} (hl : a.lists l) {fuel : Nat}
    (hf : (a.seq l).length ≤ fuel) : s.toList fuel l = some (a.seq l) := by
  unfold LS.toList
  rw [h.begin' hl]
  exact walk_chain (fun x hx => (h.liveN x).2 (h.mem l x hx)) (h.chain l hl).1 fuel hf

/-- next element -/
theorem LInv.inc {s : LS} {a : Seqs} (h : LInv s a) {l x : Nat} {pre post : List Nat}
    (hs : a.seq l = pre ++ x :: post) : s.inc (some x) = some post.head? := by
  have hx : x ∈ a.seq l := by rw [hs]; simp
  have hc := (h.chain l (h.alive hx)).1
  rw [hs] at hc
  show (s.getNx (.node x)).map Ptr.getNode = _
  rw [LS.getNx, if_pos ((h.liveN x).2 (h.mem l x hx)), hc.split.2.nx_eq, Option.map_some,
    hd_getNode]

/-- `list_delete_all_next`, for any `delete` that removes the first element -/
theorem deleteAll_spec {σ : Type} (ls : σ → LS) (del : σ → Nat → Option σ) (l : Nat)
    (R : σ → List Nat → Prop)
    (hnx : ∀ s xs, R s xs → (ls s).getNx (.head l) = some (hd xs))
    (hdel : ∀ s x xs, R s (x :: xs) → ∃ s', del s x = some s' ∧ R s' xs) :
    ∀ xs fuel s, R s xs → xs.length < fuel → ∃ s', LS.deleteAll ls del l fuel s = some s' ∧ R s' [] := by
  intro xs
  induction xs with
  | nil =>
    intro fuel s h hf
    cases fuel with
    | zero => simp at hf
    | succ fuel => refine ⟨s, ?_, h⟩; simp [LS.deleteAll, hnx s _ h, hd, Ptr.getNode]
  | cons x xs ih =>
    intro fuel s h hf
    cases fuel with
    | zero => simp at hf
    | succ fuel =>
      obtain ⟨s', h1, h2⟩ := hdel s x xs h
      obtain ⟨s'', h3, h4⟩ := ih fuel s' h2 (by simpa using hf)
      refine ⟨s'', ?_, h4⟩
      simp only [LS.deleteAll, hnx s _ h, Option.bind_some, hd, Ptr.getNode, h1, h3]

/-- `clear_if`, for any `delete` that removes its argument -/
theorem clearIf_spec {σ : Type} (ls : σ → LS) (del : σ → Nat → Option σ) (f : Nat → Bool)
    (R : σ → List Nat → List Nat → Prop)
    (hinc : ∀ s pre x post, R s pre (x :: post) → (ls s).inc (some x) = some post.head?)
    (hdel : ∀ s pre x post, R s pre (x :: post) → f x = true →
      ∃ s', del s x = some s' ∧ R s' pre post)
    (hkeep : ∀ s pre x post, R s pre (x :: post) → f x = false → R s (pre ++ [x]) post) :
    ∀ post fuel pre s, R s pre post → post.length ≤ fuel →
      ∃ s', LS.clearIf ls del f fuel post.head? s = some s' ∧
        R s' (pre ++ post.filter (fun x => !f x)) [] := by
  intro post
  induction post with
  | nil => intro fuel pre s h _; refine ⟨s, by cases fuel <;> rfl, by simpa using h⟩
  | cons x post ih =>
    intro fuel pre s h hf
    cases fuel with
    | zero => simp at hf
    | succ fuel =>
      simp only [List.head?_cons, LS.clearIf, hinc s pre x post h, Option.bind_some]
      cases hfx : f x with
      | true =>
        obtain ⟨s', h1, h2⟩ := hdel s pre x post h hfx
        obtain ⟨s'', h3, h4⟩ := ih fuel pre s' h2 (by simpa using hf)
        refine ⟨s'', ?_, ?_⟩
        · simp only [if_true, h1, Option.bind_some, h3]
        · simpa [hfx] using h4
      | false =>
        obtain ⟨s'', h3, h4⟩ := ih fuel (pre ++ [x]) s (hkeep s pre x post h hfx) (by simpa using hf)
        refine ⟨s'', ?_, ?_⟩
        · simpa using h3
        · simpa [hfx] using h4

end Joque
