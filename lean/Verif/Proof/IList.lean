import Verif.Spec.IList

namespace Joque

@[simp] theorem fset_same {α β : Type} [DecidableEq α] (f : α → β) (a : α) (b : β) :
    fset f a b a = b := by simp [fset]

theorem fset_other {α β : Type} [DecidableEq α] (f : α → β) {a x : α} (b : β) (h : x ≠ a) :
    fset f a b x = f x := by simp [fset, h]

/-- from `p` on, the list continues with `xs` and then ends -/
def Chain (s : LS) : Ptr → List Nat → Prop
  | p, [] => s.nx p = .null
  | p, x :: xs => s.nx p = .node x ∧ s.pv (.node x) = p ∧ Chain s (.node x) xs

def hd : List Nat → Ptr
  | [] => .null
  | x :: _ => .node x

def lastPtr : Ptr → List Nat → Ptr
  | p, [] => p
  | _, x :: xs => lastPtr (.node x) xs

theorem Chain.nx_eq {s : LS} {p : Ptr} {xs : List Nat} (h : Chain s p xs) : s.nx p = hd xs := by
  cases xs with
  | nil => exact h
  | cons x xs => exact h.1

theorem hd_getNode (xs : List Nat) : (hd xs).getNode = xs.head? := by cases xs <;> rfl

theorem Chain.frame {s s' : LS} {p : Ptr} {xs : List Nat} (h : Chain s p xs)
    (hp : s'.nx p = s.nx p) (hn : ∀ x ∈ xs, s'.nx (.node x) = s.nx (.node x))
    (hv : ∀ x ∈ xs, s'.pv (.node x) = s.pv (.node x)) : Chain s' p xs := by
  induction xs generalizing p with
  | nil => exact hp.trans h
  | cons x xs ih =>
    obtain ⟨h1, h2, h3⟩ := h
    refine ⟨hp.trans h1, (hv x (by simp)).trans h2, ih h3 (hn x (by simp)) ?_ ?_⟩
    · intro y hy; exact hn y (by simp [hy])
    · intro y hy; exact hv y (by simp [hy])

theorem lastPtr_mem (p : Ptr) (xs : List Nat) : lastPtr p xs = p ∨ ∃ x ∈ xs, lastPtr p xs = .node x := by
  induction xs generalizing p with
  | nil => exact .inl rfl
  | cons x xs ih =>
    right
    rcases ih (.node x) with h | ⟨y, hy, h⟩
    · exact ⟨x, by simp, h⟩
    · exact ⟨y, by simp [hy], h⟩

theorem Chain.split {s : LS} {p : Ptr} {pre post : List Nat} {x : Nat}
    (h : Chain s p (pre ++ x :: post)) :
    s.pv (.node x) = lastPtr p pre ∧ Chain s (.node x) post := by
  induction pre generalizing p with
  | nil => exact ⟨h.2.1, h.2.2⟩
  | cons y pre ih => exact ih h.2.2

/-- removing one element -/
theorem Chain.remove {s s' : LS} {p : Ptr} {pre post : List Nat} {x : Nat}
    (h : Chain s p (pre ++ x :: post)) (hnd : (pre ++ x :: post).Nodup)
    (hp : ∀ y ∈ pre ++ x :: post, p ≠ .node y)
    (hnx : ∀ q, s'.nx q = if q = lastPtr p pre then hd post else s.nx q)
    (hpv : ∀ q, s'.pv q = if q ≠ .null ∧ q = hd post then lastPtr p pre else s.pv q) :
    Chain s' p (pre ++ post) := by
  induction pre generalizing p with
  | nil =>
    obtain ⟨_, _, h3⟩ := h
    replace hnx : ∀ q, s'.nx q = if q = p then hd post else s.nx q := hnx
    replace hpv : ∀ q, s'.pv q = if q ≠ .null ∧ q = hd post then p else s.pv q := hpv
    rw [List.nil_append]
    rw [List.nil_append, List.nodup_cons] at hnd
    cases post with
    | nil => show s'.nx p = _; rw [hnx]; simp [hd]
    | cons y ys =>
      have hnd2 := List.nodup_cons.1 hnd.2
      refine ⟨by rw [hnx]; simp [hd], by rw [hpv]; simp [hd], h3.2.2.frame ?_ ?_ ?_⟩
      · rw [hnx, if_neg (fun h => hp y (by simp) h.symm)]
      · intro z hz
        rw [hnx, if_neg (fun h => hp z (by simp [hz]) h.symm)]
      · intro z hz
        rw [hpv, if_neg]
        rintro ⟨_, h⟩
        simp only [hd, Ptr.node.injEq] at h
        exact hnd2.1 (h ▸ hz)
  | cons z pre ih =>
    obtain ⟨h1, h2, h3⟩ := h
    rw [List.cons_append, List.nodup_cons] at hnd
    have hnd1 : z ∉ pre ∧ z ≠ x ∧ z ∉ post := by
      have := hnd.1
      simp only [List.mem_append, List.mem_cons, not_or] at this
      exact ⟨this.1, this.2.1, this.2.2⟩
    refine ⟨?_, ?_, ih h3 hnd.2 ?_ hnx hpv⟩
    · rw [hnx, if_neg, h1]
      intro h
      simp only [lastPtr] at h
      rcases lastPtr_mem (.node z) pre with h' | ⟨w, hw, h'⟩
      · exact hp z (by simp) (h.trans h')
      · exact hp w (by simp [hw]) (h.trans h')
    · rw [hpv, if_neg, h2]
      rintro ⟨_, h⟩
      cases post with
      | nil => simp [hd] at h
      | cons y ys => simp only [hd, Ptr.node.injEq] at h; exact hnd1.2.2 (by simp [h])
    · intro y hy h
      cases h
      exact hnd.1 hy

/-- the headers implement the sequences -/
structure LInv (s : LS) (a : Seqs) : Prop where
  liveH : ∀ l, s.live (.head l) = true ↔ a.lists l
  liveN : ∀ n, s.live (.node n) = true ↔ a.nodes n
  chain : ∀ l, a.lists l → Chain s (.head l) (a.seq l) ∧ s.pv (.head l) = .null
  dead : ∀ l, ¬ a.lists l → a.seq l = []
  mem : ∀ l x, x ∈ a.seq l → a.nodes x
  nodup : ∀ l, (a.seq l).Nodup
  disj : ∀ l l' x, x ∈ a.seq l → x ∈ a.seq l' → l = l'
  loose : ∀ n, a.nodes n → a.Loose n → s.nx (.node n) = .null ∧ s.pv (.node n) = .null

theorem LInv.init : LInv LS.empty Seqs.init := by
  refine ⟨?_, ?_, ?_, ?_, ?_, ?_, ?_, ?_⟩ <;> simp [LS.empty, Seqs.init]

theorem LInv.alive {s : LS} {a : Seqs} (h : LInv s a) {l x : Nat} (hx : x ∈ a.seq l) : a.lists l := by
  by_cases hl : a.lists l
  · exact hl
  · rw [h.dead l hl] at hx; cases hx

theorem construct_same (s : LS) (h : Ptr) :
    (s.construct h).nx h = .null ∧ (s.construct h).pv h = .null ∧ (s.construct h).live h = true := by
  simp [LS.construct]

theorem construct_nx (s : LS) {h q : Ptr} (hq : q ≠ h) : (s.construct h).nx q = s.nx q :=
  fset_other _ _ hq

theorem construct_pv (s : LS) {h q : Ptr} (hq : q ≠ h) : (s.construct h).pv q = s.pv q :=
  fset_other _ _ hq

theorem construct_live (s : LS) {h q : Ptr} (hq : q ≠ h) : (s.construct h).live q = s.live q :=
  fset_other _ _ hq

theorem LInv.newList {s : LS} {a : Seqs} (h : LInv s a) {l : Nat} (hl : ¬ a.lists l) :
    LInv (s.construct (.head l)) ((LOp.newList l).apply a) := by
  have hs : fset a.seq l [] = a.seq := by
    funext x; unfold fset; split
    · rename_i e; rw [e, h.dead l hl]
    · rfl
  have happ : (LOp.newList l).apply a = { a with lists := fun x => x = l ∨ a.lists x } := by
    show ({ a with lists := _, seq := fset a.seq l [] } : Seqs) = _
    rw [hs]
  rw [happ]
  refine ⟨fun m => ?_, fun n => ?_, fun m hm => ?_, fun m hm => h.dead m (fun h => hm (.inr h)),
    h.mem, h.nodup, h.disj, fun n hn hL => ?_⟩
  · by_cases hm : m = l
    · subst hm; simp [(construct_same _ _).2.2]
    · rw [construct_live _ (by simpa using hm), h.liveH]; simp [hm]
  · rw [construct_live _ (by simp), h.liveN]
  · by_cases hml : m = l
    · subst hml
      simp only [h.dead _ hl]
      exact ⟨(construct_same _ _).1, (construct_same _ _).2.1⟩
    · obtain ⟨h1, h2⟩ := h.chain m (hm.resolve_left hml)
      refine ⟨h1.frame ?_ (fun x _ => ?_) (fun x _ => ?_), ?_⟩
      · exact construct_nx _ (by simpa using hml)
      · exact construct_nx _ (by simp)
      · exact construct_pv _ (by simp)
      · rw [construct_pv _ (by simpa using hml)]; exact h2
  · obtain ⟨h1, h2⟩ := h.loose n hn hL
    exact ⟨(construct_nx _ (by simp)).trans h1, (construct_pv _ (by simp)).trans h2⟩

theorem LInv.newNode {s : LS} {a : Seqs} (h : LInv s a) {n : Nat} (hn : ¬ a.nodes n) :
    LInv (s.construct (.node n)) ((LOp.newNode n).apply a) := by
  have hne : ∀ l, ∀ x ∈ a.seq l, x ≠ n := by rintro l x hx rfl; exact hn (h.mem l _ hx)
  refine ⟨fun m => ?_, fun m => ?_, fun m hm => ?_, h.dead,
    fun l x hx => .inr (h.mem l x hx), h.nodup, h.disj, fun m hm hL => ?_⟩
  · rw [construct_live _ (by simp), h.liveH]; rfl
  · by_cases hm : m = n
    · subst hm; simp [(construct_same _ _).2.2, LOp.apply]
    · rw [construct_live _ (by simpa using hm), h.liveN]
      simp [LOp.apply, hm]
  · obtain ⟨h1, h2⟩ := h.chain m hm
    refine ⟨h1.frame ?_ (fun x hx => ?_) (fun x hx => ?_), ?_⟩
    · exact construct_nx _ (by simp)
    · exact construct_nx _ (by simpa using hne m x hx)
    · exact construct_pv _ (by simpa using hne m x hx)
    · rw [construct_pv _ (by simp)]; exact h2
  · by_cases hmn : m = n
    · subst hmn; exact ⟨(construct_same _ _).1, (construct_same _ _).2.1⟩
    · obtain ⟨h1, h2⟩ := h.loose m (hm.resolve_left hmn) hL
      exact ⟨(construct_nx _ (by simpa using hmn)).trans h1,
        (construct_pv _ (by simpa using hmn)).trans h2⟩

theorem linkNext_eq {s : LS} {p : Ptr} {n : Nat} (hp : s.live p = true)
    (hn : s.live (.node n) = true) (hx : s.nx p = .null ∨ s.live (s.nx p) = true)
    (hne : p ≠ .node n) :
    ∃ s', s.linkNext p n = some s' ∧ s'.live = s.live ∧
      (∀ q, s'.nx q = if q = p then .node n else if q = .node n then s.nx p else s.nx q) ∧
      (∀ q, s'.pv q = if q = .node n then p
        else if q ≠ .null ∧ q = s.nx p then .node n else s.pv q) := by
  have hn' : s.live (.node n) := hn
  simp only [LS.linkNext, LS.getNx, hp, if_true, Option.bind_some, LS.setNx, hn, LS.setPv?]
  by_cases h0 : s.nx p = .null
  · rw [if_pos h0]
    simp only [Option.bind_some, hp, if_true, LS.setPv, hn]
    refine ⟨_, rfl, rfl, fun q => ?_, fun q => ?_⟩
    · simp only [fset]
    · simp only [fset, h0]
      split
      · rfl
      · rw [if_neg (by rintro ⟨h, h'⟩; exact h h')]
  · rw [if_neg h0]
    have hl := hx.resolve_left h0
    simp only [LS.setPv, hl, if_true, Option.bind_some, hp, hn]
    refine ⟨_, rfl, rfl, fun q => ?_, fun q => ?_⟩
    · simp only [fset]
    · simp only [fset]
      split
      · rfl
      · by_cases hq : q = s.nx p
        · rw [if_pos hq, if_pos ⟨by rw [hq]; exact h0, hq⟩]
        · rw [if_neg hq, if_neg (fun h => hq h.2)]

theorem LInv.nx_live {s : LS} {a : Seqs} (h : LInv s a) {l : Nat} (hl : a.lists l) :
    s.nx (.head l) = hd (a.seq l) ∧ (s.nx (.head l) = .null ∨ s.live (s.nx (.head l)) = true) := by
  have := (h.chain l hl).1.nx_eq
  refine ⟨this, ?_⟩
  rw [this]
  cases hs : a.seq l with
  | nil => exact .inl rfl
  | cons x xs => exact .inr ((h.liveN x).2 (h.mem l x (by rw [hs]; simp)))

theorem LInv.linkFront {s : LS} {a : Seqs} (h : LInv s a) {l n : Nat} (hl : a.lists l)
    (hn : a.nodes n) (hL : a.Loose n) :
    ∃ s', s.linkNext (.head l) n = some s' ∧ s'.live = s.live ∧
      LInv s' ((LOp.linkFront l n).apply a) := by
  obtain ⟨hx1, hx2⟩ := h.nx_live hl
  obtain ⟨s', h1, h2, h3, h4⟩ := linkNext_eq ((h.liveH l).2 hl) ((h.liveN n).2 hn) hx2 (by simp)
  refine ⟨s', h1, h2, ?_⟩
  have hne : ∀ m, ∀ x ∈ a.seq m, x ≠ n := by rintro m x hx rfl; exact hL m hx
  have hfst : ∀ q, q ≠ .null ∧ q = s.nx (.head l) → ∃ x ys, a.seq l = x :: ys ∧ q = .node x := by
    rintro q ⟨hq, rfl⟩
    rw [hx1] at hq ⊢
    cases hs : a.seq l with
    | nil => rw [hs] at hq; exact absurd rfl hq
    | cons x ys => exact ⟨x, ys, rfl, rfl⟩
  refine ⟨fun m => by rw [h2]; exact h.liveH m, fun m => by rw [h2]; exact h.liveN m,
    fun m hm => ?_, fun m hm => ?_, fun m x hx => ?_, fun m => ?_, fun m m' x hx hx' => ?_,
    fun m hm hLm => ?_⟩
  · obtain ⟨c1, c2⟩ := h.chain m hm
    have hpv : s'.pv (.head m) = .null := by
      rw [h4, if_neg (by simp), if_neg, c2]
      intro hq
      obtain ⟨x, _, _, e⟩ := hfst _ hq
      cases e
    refine ⟨?_, hpv⟩
    by_cases hml : m = l
    · subst hml
      show Chain s' _ (fset a.seq m _ m)
      rw [fset_same]
      refine ⟨by rw [h3]; simp, by rw [h4]; simp, ?_⟩
      cases hs : a.seq m with
      | nil =>
        show s'.nx _ = _
        rw [h3, if_neg (by simp), if_pos rfl, hx1, hs]; rfl
      | cons x ys =>
        rw [hs] at c1
        have hnd := h.nodup m
        rw [hs, List.nodup_cons] at hnd
        refine ⟨by rw [h3, if_neg (by simp), if_pos rfl, hx1, hs]; rfl, ?_, c1.2.2.frame ?_ ?_ ?_⟩
        · rw [h4, if_neg (by simpa using hne m x (by rw [hs]; simp)),
            if_pos ⟨by simp, by rw [hx1, hs]; rfl⟩]
        · rw [h3, if_neg (by simp), if_neg (by simpa using hne m x (by rw [hs]; simp))]
        · intro z hz
          rw [h3, if_neg (by simp), if_neg (by simpa using hne m z (by rw [hs]; simp [hz]))]
        · intro z hz
          rw [h4, if_neg (by simpa using hne m z (by rw [hs]; simp [hz])), if_neg]
          rintro ⟨_, e⟩
          rw [hx1, hs] at e
          simp only [hd, Ptr.node.injEq] at e
          exact hnd.1 (e ▸ hz)
    · show Chain s' _ (fset a.seq l _ m)
      rw [fset_other _ _ hml]
      refine c1.frame ?_ ?_ ?_
      · rw [h3, if_neg (by simpa using hml), if_neg (by simp)]
      · intro z hz
        rw [h3, if_neg (by simp), if_neg (by simpa using hne m z hz)]
      · intro z hz
        rw [h4, if_neg (by simpa using hne m z hz), if_neg]
        intro hq
        obtain ⟨x, ys, e1, e2⟩ := hfst _ hq
        cases e2
        exact hml (h.disj m l z hz (by rw [e1]; simp))
  · show fset a.seq l _ m = []
    rw [fset_other _ _ (by rintro rfl; exact hm hl)]
    exact h.dead m hm
  · have hx' : x ∈ fset a.seq l (n :: a.seq l) m := hx
    unfold fset at hx'
    split at hx'
    · rcases List.mem_cons.1 hx' with rfl | hx'
      · exact hn
      · exact h.mem l x hx'
    · exact h.mem m x hx'
  · show (fset a.seq l _ m).Nodup
    unfold fset
    split
    · exact List.nodup_cons.2 ⟨hL l, h.nodup l⟩
    · exact h.nodup m
  · have key : ∀ m, x ∈ fset a.seq l (n :: a.seq l) m → (x = n ∧ m = l) ∨ x ∈ a.seq m := by
      intro m hx
      unfold fset at hx
      split at hx
      · rename_i e
        rcases List.mem_cons.1 hx with rfl | hx
        · exact .inl ⟨rfl, e⟩
        · rw [e]; exact .inr hx
      · exact .inr hx
    rcases key m hx with ⟨e, e1⟩ | h1 <;> rcases key m' hx' with ⟨e', e2⟩ | h2
    · rw [e1, e2]
    · exact absurd h2 (e ▸ hL m')
    · exact absurd h1 (e' ▸ hL m)
    · exact h.disj m m' x h1 h2
  · have hmn : m ≠ n := by
      rintro rfl
      exact hLm l (by show _ ∈ fset a.seq l _ l; simp)
    have hLm' : a.Loose m := by
      intro k hk
      apply hLm k
      show m ∈ fset a.seq l _ k
      unfold fset
      split
      · rename_i e; rw [e] at hk; simp [hk]
      · exact hk
    obtain ⟨g1, g2⟩ := h.loose m hm hLm'
    refine ⟨?_, ?_⟩
    · rw [h3, if_neg (by simp), if_neg (by simpa using hmn), g1]
    · rw [h4, if_neg (by simpa using hmn), if_neg, g2]
      intro hq
      obtain ⟨x, ys, e1, e2⟩ := hfst _ hq
      cases e2
      exact hLm' l (by rw [e1]; simp)

end Joque
