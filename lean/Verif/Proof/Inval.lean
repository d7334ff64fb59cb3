import Verif.Proof.Cycle
import Verif.Proof.Sets
import Verif.Spec.Inval

namespace Joque

@[simp] theorem setInval_same {f : Node → Inval} {n : Node} {v : Inval} : setInval f n v n = v := by
  simp [setInval]

theorem setInval_apply {f : Node → Inval} {n m : Node} {v : Inval} :
    setInval f n v m = if m = n then v else f m := rfl

/-- answer of `n` as stored in `invalidated` -/
def ansOf (ask : Node → InvalOut) (n : Node) : Inval :=
  match ask n with
  | .answer r => if r.invalidated then .invalid else .valid
  | .throws _ => .unknown

/-- log of the answer of `n` -/
def logOf (ask : Node → InvalOut) (n : Node) : Str :=
  match ask n with
  | .answer r => r.log
  | .throws _ => []

theorem ansOf_invalid {ask : Node → InvalOut} {n : Node} :
    ansOf ask n = .invalid ↔ SelfStale ask n := by
  unfold ansOf SelfStale
  cases h : ask n with
  | throws w => simp
  | answer r =>
    obtain ⟨i, l⟩ := r
    cases i <;> simp

/-- the answer of `n` is available -/
def Answers (hasJob : Node → Bool) (ask : Node → InvalOut) (n : Node) : Prop :=
  hasJob n = true ∧ ∃ r, ask n = .answer r

/-- Successful first loop. -/
theorem queryLoop_ok {hasJob : Node → Bool} {ask : Node → InvalOut} :
    ∀ (ns tp : List Node) (s : PSt), (∀ n ∈ ns, Answers hasJob ask n) → tp.Pairwise (· < ·) →
      ∃ tp' s', queryLoop hasJob ask ns tp s = .ok tp' s' ∧ tp'.Pairwise (· < ·) ∧
        (∀ x, x ∈ tp' ↔ x ∈ tp ∨ (x ∈ ns ∧ SelfStale ask x)) ∧
        (∀ x, s'.inval x = if x ∈ ns then ansOf ask x else s.inval x) ∧
        s'.events = s.events ++ ns.map (fun n => Event.jobInval n (ansOf ask n) (logOf ask n)) := by
  intro ns
  induction ns with
  | nil => intro tp s _ htp; exact ⟨tp, s, rfl, htp, by simp, by simp, by simp⟩
  | cons n ns ih =>
    intro tp s hall htp
    obtain ⟨hj, r, hr⟩ := hall n (by simp)
    have hall' : ∀ m ∈ ns, Answers hasJob ask m := fun m hm => hall m (by simp [hm])
    have hlog : logOf ask n = r.log := by simp [logOf, hr]
    cases hri : r.invalidated with
    | true =>
      have hans : ansOf ask n = .invalid := by simp [ansOf, hr, hri]
      have hself := ansOf_invalid.1 hans
      obtain ⟨tp', s', h1, h2, h3, h4, h5⟩ := ih (sinsert n tp)
        { inval := setInval s.inval n .invalid
          events := s.events ++ [.jobInval n .invalid r.log] } hall' (sinsert_sorted htp)
      refine ⟨tp', s', by simp [queryLoop, hj, hr, hri, h1], h2, ?_, ?_, ?_⟩
      · intro x; rw [h3]; simp
        constructor
        · rintro ((rfl | h) | h)
          · exact Or.inr ⟨Or.inl rfl, hself⟩
          · exact Or.inl h
          · exact Or.inr ⟨Or.inr h.1, h.2⟩
        · rintro (h | ⟨rfl | h, h'⟩)
          · exact Or.inl (Or.inr h)
          · exact Or.inl (Or.inl rfl)
          · exact Or.inr ⟨h, h'⟩
      · intro x; rw [h4]
        by_cases hx : x = n
        · subst hx; simp [hans]
        · simp [hx, setInval_apply]
      · rw [h5]; simp [hans, hlog]
    | false =>
      have hans : ansOf ask n = .valid := by simp [ansOf, hr, hri]
      have hself : ¬ SelfStale ask n := fun h => by rw [ansOf_invalid.2 h] at hans; simp at hans
      obtain ⟨tp', s', h1, h2, h3, h4, h5⟩ := ih tp
        { inval := setInval s.inval n .valid
          events := s.events ++ [.jobInval n .valid r.log] } hall' htp
      refine ⟨tp', s', by simp [queryLoop, hj, hr, hri, h1], h2, ?_, ?_, ?_⟩
      · intro x; rw [h3]; simp
        constructor
        · rintro (h | h)
          · exact Or.inl h
          · exact Or.inr ⟨Or.inr h.1, h.2⟩
        · rintro (h | ⟨rfl | h, h'⟩)
          · exact Or.inl h
          · exact absurd h' hself
          · exact Or.inr ⟨h, h'⟩
      · intro x; rw [h4]
        by_cases hx : x = n
        · subst hx; simp [hans]
        · simp [hx, setInval_apply]
      · rw [h5]; simp [hans, hlog]

/-- Failing first loop: the first node without an answer decides. -/
theorem queryLoop_fail {hasJob : Node → Bool} {ask : Node → InvalOut} (pre : List Node) (n : Node)
    (post : List Node) (hn : ¬ Answers hasJob ask n) :
    ∀ (tp : List Node) (s : PSt), (∀ m ∈ pre, Answers hasJob ask m) →
      queryLoop hasJob ask (pre ++ n :: post) tp s =
        (let ev := s.events ++
            pre.map (fun m => Event.jobInval m (ansOf ask m) (logOf ask m))
         if hasJob n then
           match ask n with
           | .throws w => .threw w ev
           | .answer _ => .ub ev
         else .ub ev) := by
  induction pre with
  | nil =>
    intro tp s _
    cases hj : hasJob n with
    | false => simp [queryLoop, hj]
    | true =>
      cases ha : ask n with
      | throws w => simp [queryLoop, hj, ha]
      | answer r => exact absurd ⟨hj, r, ha⟩ hn
  | cons m pre ih =>
    intro tp s hall
    obtain ⟨hj, r, hr⟩ := hall m (by simp)
    have hall' : ∀ k ∈ pre, Answers hasJob ask k := fun k hk => hall k (by simp [hk])
    have hlog : logOf ask m = r.log := by simp [logOf, hr]
    cases hri : r.invalidated with
    | true =>
      have hans : ansOf ask m = .invalid := by simp [ansOf, hr, hri]
      simp only [List.cons_append, queryLoop, hj, hr, hri, if_true]
      rw [ih _ _ hall']
      simp [hans, hlog]
    | false =>
      have hans : ansOf ask m = .valid := by simp [ansOf, hr, hri]
      simp only [List.cons_append, queryLoop, hj, hr, hri, if_true, Bool.false_eq_true, if_false]
      rw [ih _ _ hall']
      simp [hans, hlog]

theorem propEdges_spec (seen : List Node) :
    ∀ (es : List Edge) (tp : List Node) (s : PSt), tp.Pairwise (· < ·) →
      (propEdges seen es tp s).1.Pairwise (· < ·) ∧
      (∀ x, x ∈ (propEdges seen es tp s).1 ↔ x ∈ tp ∨ (x ∉ seen ∧ ∃ e ∈ es, e.src = x)) ∧
      (∀ x, (x ∉ seen ∧ ∃ e ∈ es, e.src = x) → (propEdges seen es tp s).2.inval x = .invalid) ∧
      (∀ x, ¬ (x ∉ seen ∧ ∃ e ∈ es, e.src = x) → (propEdges seen es tp s).2.inval x = s.inval x) ∧
      (propEdges seen es tp s).2.events = s.events ++
        (es.filter (fun e => e.src ∉ seen)).map (fun e => Event.depInval e.src e.tgt) := by
  intro es
  induction es with
  | nil => intro tp s h; simp [propEdges, h]
  | cons e es ih =>
    intro tp s htp
    by_cases hs : e.src ∈ seen
    · obtain ⟨h1, h2, h3, h4, h5⟩ := ih tp s htp
      simp only [propEdges, hs, if_true]
      refine ⟨h1, ?_, ?_, ?_, ?_⟩
      · intro x; rw [h2]
        constructor
        · rintro (h | ⟨h, e', he', hx⟩)
          · exact Or.inl h
          · exact Or.inr ⟨h, e', by simp [he'], hx⟩
        · rintro (h | ⟨h, e', he', hx⟩)
          · exact Or.inl h
          · rcases List.mem_cons.1 he' with rfl | he'
            · subst hx; exact absurd hs h
            · exact Or.inr ⟨h, e', he', hx⟩
      · rintro x ⟨h, e', he', hx⟩
        rcases List.mem_cons.1 he' with rfl | he'
        · subst hx; exact absurd hs h
        · exact h3 x ⟨h, e', he', hx⟩
      · intro x hx
        exact h4 x (fun ⟨h, e', he', hx'⟩ => hx ⟨h, e', by simp [he'], hx'⟩)
      · rw [h5]; simp [hs]
    · obtain ⟨h1, h2, h3, h4, h5⟩ := ih (sinsert e.src tp)
        { inval := setInval s.inval e.src .invalid
          events := s.events ++ [.depInval e.src e.tgt] } (sinsert_sorted htp)
      simp only [propEdges, hs, if_false]
      refine ⟨h1, ?_, ?_, ?_, ?_⟩
      · intro x; rw [h2]; simp
        constructor
        · rintro ((rfl | h) | ⟨h, e', he', hx⟩)
          · exact Or.inr ⟨hs, Or.inl rfl⟩
          · exact Or.inl h
          · exact Or.inr ⟨h, Or.inr ⟨e', he', hx⟩⟩
        · rintro (h | ⟨h, rfl | ⟨e', he', hx⟩⟩)
          · exact Or.inl (Or.inr h)
          · exact Or.inl (Or.inl rfl)
          · exact Or.inr ⟨h, e', he', hx⟩
      · rintro x ⟨h, e', he', hx⟩
        by_cases hex : x ∉ seen ∧ ∃ e ∈ es, e.src = x
        · exact h3 x hex
        · rw [h4 x hex]
          rcases List.mem_cons.1 he' with rfl | he'
          · subst hx; simp
          · exact absurd ⟨h, e', he', hx⟩ hex
      · intro x hx
        have hx1 : ¬ (x ∉ seen ∧ ∃ e ∈ es, e.src = x) :=
          fun ⟨h, e', he', hx'⟩ => hx ⟨h, e', by simp [he'], hx'⟩
        rw [h4 x hx1]
        have : x ≠ e.src := by rintro rfl; exact hx ⟨hs, e, by simp, rfl⟩
        simp [setInval_apply, this]
      · rw [h5]; simp [hs]

/-- Invariant of the propagation loop; `ex` are the extracted nodes. -/
structure PInv (g : Dag) (ask : Node → InvalOut) (inval0 : Node → Inval)
    (ex tp seen : List Node) (s : PSt) (ev0 : List Event) : Prop where
  sorted : tp.Pairwise (· < ·)
  tpNodes : ∀ x ∈ tp, x ∈ g.nodes
  exNodes : ∀ x ∈ ex, x ∈ g.nodes
  tpInv : ∀ x ∈ tp, s.inval x = .invalid
  disj : ∀ x ∈ tp, x ∉ ex
  exSeen : ∀ x ∈ ex, x ∈ seen
  selfSeen : ∀ x ∈ g.nodes, SelfStale ask x → x ∈ seen
  seenInv : ∀ x ∈ seen, s.inval x = .invalid
  selfInv : ∀ x ∈ g.nodes, SelfStale ask x → s.inval x = .invalid
  sound : ∀ x ∈ g.nodes, s.inval x = .invalid → Stale g ask x
  work : ∀ x ∈ g.nodes, s.inval x = .invalid →
    x ∈ tp ∨ ∀ y, HasEdge g .invalidatedBy y x → s.inval y = .invalid
  rest : ∀ x, s.inval x = .invalid ∨ s.inval x = inval0 x
  outside : ∀ x, x ∉ g.nodes → s.inval x = inval0 x
  events : ∃ evs, s.events = ev0 ++ evs ∧
    (∀ e ∈ evs, ∃ n m, e = .depInval n m ∧ HasEdge g .invalidatedBy n m ∧ Stale g ask m ∧
      ¬ SelfStale ask n) ∧
    (∀ x ∈ g.nodes, s.inval x = .invalid → ¬ SelfStale ask x → ∃ m, .depInval x m ∈ evs)

theorem propLoop_spec {g : Dag} (hwf : g.WF) {ask : Node → InvalOut} {inval0 : Node → Inval}
    {ev0 : List Event} :
    ∀ (fuel : Nat) (ex tp seen : List Node) (s : PSt), unseen g ex < fuel →
      PInv g ask inval0 ex tp seen s ev0 →
      ∃ s' ex' seen', propLoop g fuel tp seen s = .ok s' ∧
        PInv g ask inval0 ex' [] seen' s' ev0 := by
  intro fuel
  induction fuel with
  | zero => intro ex tp seen s h; omega
  | succ fuel ih =>
    intro ex tp seen s hf hI
    cases tp with
    | nil => exact ⟨s, ex, seen, by simp [propLoop], hI⟩
    | cons p tp =>
      have hp : s.inval p = .invalid := hI.tpInv p (by simp)
      have hpn : p ∈ g.nodes := hI.tpNodes p (by simp)
      have hpex : p ∉ ex := hI.disj p (by simp)
      have hsorted := hI.sorted
      rw [List.pairwise_cons] at hsorted
      obtain ⟨e1, e2, e3, e4, e5⟩ := propEdges_spec (p :: seen)
        (filterEdges .invalidatedBy (g.inEdges p)) tp s hsorted.2
      generalize hR : propEdges (p :: seen) (filterEdges .invalidatedBy (g.inEdges p)) tp s = R
        at e1 e2 e3 e4 e5
      have hedge : ∀ x, (∃ e ∈ filterEdges .invalidatedBy (g.inEdges p), e.src = x) ↔
          HasEdge g .invalidatedBy x p := by
        intro x
        constructor
        · rintro ⟨e, he, rfl⟩
          obtain ⟨h1, h2, h3⟩ := mem_filterEdges_in.1 he
          cases e; simp_all [HasEdge]
        · intro h
          exact ⟨⟨x, p, .invalidatedBy⟩, mem_filterEdges_in.2 ⟨h, rfl, rfl⟩, rfl⟩
      simp only [hedge] at e2 e3 e4
      have hmono : ∀ x, s.inval x = .invalid → R.2.inval x = .invalid := by
        intro x hx
        by_cases hc : x ∉ p :: seen ∧ HasEdge g .invalidatedBy x p
        · exact e3 x hc
        · rw [e4 x hc]; exact hx
      have hpstale : Stale g ask p := hI.sound p hpn hp
      have hI' : PInv g ask inval0 (p :: ex) R.1 (p :: seen) R.2 ev0 := by
        constructor
        · exact e1
        · intro x hx
          rcases (e2 x).1 hx with h | ⟨_, h⟩
          · exact hI.tpNodes x (by simp [h])
          · exact (hwf.closed _ h).1
        · intro x hx
          rcases List.mem_cons.1 hx with rfl | h
          · exact hpn
          · exact hI.exNodes x h
        · intro x hx
          rcases (e2 x).1 hx with h | h
          · exact hmono x (hI.tpInv x (by simp [h]))
          · exact e3 x h
        · intro x hx
          rcases (e2 x).1 hx with h | ⟨h, _⟩
          · simp
            exact ⟨fun hc => Nat.lt_irrefl p (hc ▸ hsorted.1 x h), hI.disj x (by simp [h])⟩
          · intro hc
            apply h
            rcases List.mem_cons.1 hc with rfl | hc
            · simp
            · simp [hI.exSeen x hc]
        · intro x hx
          rcases List.mem_cons.1 hx with rfl | h
          · simp
          · simp [hI.exSeen x h]
        · intro x hx hs; simp [hI.selfSeen x hx hs]
        · intro x hx
          rcases List.mem_cons.1 hx with rfl | h
          · exact hmono _ hp
          · exact hmono x (hI.seenInv x h)
        · intro x hx hs; exact hmono x (hI.selfInv x hx hs)
        · intro x hx hxi
          by_cases hc : x ∉ p :: seen ∧ HasEdge g .invalidatedBy x p
          · obtain ⟨m, hm, hs⟩ := hpstale
            exact ⟨m, hm.head hc.2, hs⟩
          · rw [e4 x hc] at hxi; exact hI.sound x hx hxi
        · intro x hx hxi
          by_cases hc : x ∉ p :: seen ∧ HasEdge g .invalidatedBy x p
          · exact Or.inl ((e2 x).2 (Or.inr hc))
          · rw [e4 x hc] at hxi
            rcases hI.work x hx hxi with h | h
            · rcases List.mem_cons.1 h with rfl | h
              · refine Or.inr ?_
                intro y hy
                by_cases hys : y ∉ x :: seen
                · exact e3 y ⟨hys, hy⟩
                · simp at hys
                  by_cases hyx : y = x
                  · subst hyx; exact hmono y hp
                  · exact hmono y (hI.seenInv y (hys hyx))
              · exact Or.inl ((e2 x).2 (Or.inl h))
            · exact Or.inr (fun y hy => hmono y (h y hy))
        · intro x
          by_cases hc : x ∉ p :: seen ∧ HasEdge g .invalidatedBy x p
          · exact Or.inl (e3 x hc)
          · rw [e4 x hc]; exact hI.rest x
        · intro x hx
          have hc : ¬ (x ∉ p :: seen ∧ HasEdge g .invalidatedBy x p) :=
            fun h => hx (hwf.closed _ h.2).1
          rw [e4 x hc]; exact hI.outside x hx
        · obtain ⟨evs, h1, h2, h3⟩ := hI.events
          refine ⟨evs ++ ((filterEdges .invalidatedBy (g.inEdges p)).filter
            (fun e => e.src ∉ p :: seen)).map (fun e => Event.depInval e.src e.tgt), ?_, ?_, ?_⟩
          · rw [e5, h1]; simp
          · intro e he
            rcases List.mem_append.1 he with he | he
            · exact h2 e he
            · simp only [List.mem_map, List.mem_filter] at he
              obtain ⟨ed, ⟨hed, hns⟩, rfl⟩ := he
              obtain ⟨g1, g2, g3⟩ := mem_filterEdges_in.1 hed
              refine ⟨ed.src, ed.tgt, rfl, ?_, ?_, ?_⟩
              · cases ed; simp_all [HasEdge]
              · rw [g2]; exact hpstale
              · intro hs
                have hin := (hwf.closed _ g1).1
                have := hI.selfSeen _ hin hs
                simp [this] at hns
          · intro x hx hxi hs
            by_cases hc : x ∉ p :: seen ∧ HasEdge g .invalidatedBy x p
            · refine ⟨p, List.mem_append.2 (Or.inr ?_)⟩
              simp only [List.mem_map, List.mem_filter]
              exact ⟨⟨x, p, .invalidatedBy⟩, ⟨mem_filterEdges_in.2 ⟨hc.2, rfl, rfl⟩,
                by simpa using hc.1⟩, rfl⟩
            · rw [e4 x hc] at hxi
              obtain ⟨m, hm⟩ := h3 x hx hxi hs
              exact ⟨m, List.mem_append.2 (Or.inl hm)⟩
      obtain ⟨s', ex', seen', h1, h2⟩ := ih (p :: ex) R.1 (p :: seen) R.2
        (by have := unseen_lt hpn hpex; omega) hI'
      refine ⟨s', ex', seen', ?_, h2⟩
      simp [propLoop, hp, hR, h1]

/-- Full result of a successful `propagate_invalidation`. -/
theorem propagate_ok {g : Dag} (hwf : g.WF) {hasJob : Node → Bool} {ask : Node → InvalOut}
    {tp : List Node} {inval0 : Node → Inval} (htp : ∀ n, n ∈ tp ↔ n ∈ g.nodes)
    (hall : ∀ n ∈ g.nodes, Answers hasJob ask n) :
    ∃ s evs, propagateInvalidation g hasJob ask tp inval0 = .ok s ∧
      (∀ n ∈ g.nodes, Stale g ask n → s.inval n = .invalid) ∧
      (∀ n ∈ g.nodes, ¬ Stale g ask n → s.inval n = .valid) ∧
      s.events = tp.map (fun n => Event.jobInval n (ansOf ask n) (logOf ask n)) ++ evs ∧
      (∀ e ∈ evs, ∃ n m, e = .depInval n m ∧ HasEdge g .invalidatedBy n m ∧ Stale g ask m ∧
        ¬ SelfStale ask n) ∧
      (∀ x ∈ g.nodes, Stale g ask x → ¬ SelfStale ask x → ∃ m, .depInval x m ∈ evs) := by
  obtain ⟨tp', s1, h1, h2, h3, h4, h5⟩ := queryLoop_ok (hasJob := hasJob) (ask := ask) tp []
    { inval := inval0, events := [] } (fun n hn => hall n ((htp n).1 hn)) (by simp)
  have hans : ∀ n ∈ g.nodes, s1.inval n = ansOf ask n := by
    intro n hn; rw [h4]; simp [(htp n).2 hn]
  have hI : PInv g ask s1.inval [] tp' tp' s1 s1.events := by
    constructor
    · exact h2
    · intro x hx
      have := (h3 x).1 hx
      simp at this
      exact (htp x).1 this.1
    · simp
    · intro x hx
      have := (h3 x).1 hx
      simp at this
      rw [hans x ((htp x).1 this.1)]; exact ansOf_invalid.2 this.2
    · simp
    · simp
    · intro x hx hs; exact (h3 x).2 (Or.inr ⟨(htp x).2 hx, hs⟩)
    · intro x hx
      have := (h3 x).1 hx
      simp at this
      rw [hans x ((htp x).1 this.1)]; exact ansOf_invalid.2 this.2
    · intro x hx hs; rw [hans x hx]; exact ansOf_invalid.2 hs
    · intro x hx hxi
      rw [hans x hx] at hxi
      exact ⟨x, .refl, ansOf_invalid.1 hxi⟩
    · intro x hx hxi
      rw [hans x hx] at hxi
      exact Or.inl ((h3 x).2 (Or.inr ⟨(htp x).2 hx, ansOf_invalid.1 hxi⟩))
    · intro x; exact Or.inr rfl
    · intro x _; rfl
    · refine ⟨[], by simp, by simp, ?_⟩
      intro x hx hxi hs
      rw [hans x hx] at hxi
      exact absurd (ansOf_invalid.1 hxi) hs
  obtain ⟨s', ex', seen', h6, hI'⟩ := propLoop_spec hwf (g.nodes.length + 1) [] tp' tp' s1
    (Nat.lt_succ_of_le (unseen_le _ _)) hI
  obtain ⟨evs, h7, h8, h9⟩ := hI'.events
  have hcomp : ∀ n ∈ g.nodes, Stale g ask n → s'.inval n = .invalid := by
    rintro n hn ⟨m, hnm, hm⟩
    have hmn : m ∈ g.nodes := by
      rcases Relation.ReflTransGen.cases_tail hnm with h | ⟨c, _, hc⟩
      · subst h; exact hn
      · exact (hwf.closed _ hc).2
    have hmi := hI'.selfInv m hmn hm
    clear hm
    induction hnm using Relation.ReflTransGen.head_induction_on with
    | refl => exact hmi
    | head hab _ ih =>
      rename_i a b hbc
      have hbn := (hwf.closed _ hab).2
      rcases hI'.work b hbn (ih hbn) with h | h
      · simp at h
      · exact h a hab
  refine ⟨s', evs, ?_, hcomp, ?_, ?_, h8, ?_⟩
  · simp [propagateInvalidation, h1, h6]
  · intro n hn hns
    rcases hI'.rest n with h | h
    · exact absurd (hI'.sound n hn h) hns
    · rw [h, hans n hn]
      obtain ⟨_, r, hr⟩ := hall n hn
      have : ¬ SelfStale ask n := fun hs => hns ⟨n, .refl, hs⟩
      have h2 : ansOf ask n ≠ .invalid := fun h => this (ansOf_invalid.1 h)
      unfold ansOf at h2 ⊢
      rw [hr] at h2 ⊢
      by_cases hri : r.invalidated <;> simp_all
  · rw [h7, h5]; simp
  · intro x hx hxs hs
    exact h9 x hx (hcomp x hx hxs) hs

/-- Result of `propagate_invalidation` when some job is missing or throws. -/
theorem propagate_fail {g : Dag} {hasJob : Node → Bool} {ask : Node → InvalOut}
    {tp : List Node} {inval0 : Node → Inval} (hfail : ∃ n ∈ tp, ¬ Answers hasJob ask n) :
    ∃ pre n post, tp = pre ++ n :: post ∧ (∀ m ∈ pre, Answers hasJob ask m) ∧
      ¬ Answers hasJob ask n ∧
      propagateInvalidation g hasJob ask tp inval0 =
        (let ev := pre.map (fun m => Event.jobInval m (ansOf ask m) (logOf ask m))
         if hasJob n then
           match ask n with
           | .throws w => .threw w ev
           | .answer _ => .ub ev
         else .ub ev) := by
  have : ∃ pre n post, tp = pre ++ n :: post ∧ (∀ m ∈ pre, Answers hasJob ask m) ∧
      ¬ Answers hasJob ask n := by
    induction tp with
    | nil => simp at hfail
    | cons a tp ih =>
      by_cases ha : Answers hasJob ask a
      · have : ∃ n ∈ tp, ¬ Answers hasJob ask n := by
          obtain ⟨n, hn, h⟩ := hfail
          rcases List.mem_cons.1 hn with rfl | hn
          · exact absurd ha h
          · exact ⟨n, hn, h⟩
        obtain ⟨pre, n, post, h1, h2, h3⟩ := ih this
        refine ⟨a :: pre, n, post, by simp [h1], ?_, h3⟩
        intro m hm
        rcases List.mem_cons.1 hm with rfl | hm
        · exact ha
        · exact h2 m hm
      · exact ⟨[], a, tp, rfl, by simp, ha⟩
  obtain ⟨pre, n, post, h1, h2, h3⟩ := this
  refine ⟨pre, n, post, h1, h2, h3, ?_⟩
  unfold propagateInvalidation
  rw [h1, queryLoop_fail pre n post h3 _ _ h2]
  simp only [List.nil_append]
  cases hasJob n with
  | false => simp
  | true =>
    cases ask n with
    | answer r => simp
    | throws w => simp

end Joque
