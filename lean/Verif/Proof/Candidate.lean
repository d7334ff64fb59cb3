import Verif.Proof.Cycle
import Verif.Spec.Elig

namespace Joque

theorem allDone_iff {g : Dag} {f : Flags} {n : Node} :
    allDone f (filterEdges .after (g.outEdges n)) = true ↔ ∀ m, AfterEdge g n m → f.done m = true := by
  simp only [allDone, List.all_eq_true]
  constructor
  · intro h m hm
    obtain ⟨e, he, rfl⟩ := exists_of_hasEdge hm
    exact h e he
  · intro h e he
    exact h _ (hasEdge_of_mem he)

theorem anyResourceUsed_iff {rs used : List Res} :
    anyResourceUsed rs used = true ↔ ∃ r ∈ rs, r ∈ used := by
  simp [anyResourceUsed]

theorem anyDepFailed_iff {g : Dag} {f : Flags} {n : Node} :
    anyDepFailed f (g.outEdges n) = true ↔ ∃ m, HasEdge g .requires n m ∧ f.failed m = true := by
  simp only [anyDepFailed, List.any_eq_true]
  constructor
  · rintro ⟨e, he, hf⟩
    exact ⟨_, hasEdge_of_mem he, hf⟩
  · rintro ⟨m, hm, hf⟩
    obtain ⟨e, he, rfl⟩ := exists_of_hasEdge hm
    exact ⟨e, he, hf⟩

section
variable {g : Dag} {res : Node → List Res} {f : Flags} {used : List Res}

/-- result of one call -/
structure FRes (g : Dag) (res : Node → List Res) (f : Flags) (used : List Res)
    (seen : List Node) (r : Option Node) (seen' : List Node) : Prop where
  mono : ∀ x ∈ seen, x ∈ seen'
  found : ∀ m, r = some m → Eligible g res f used m ∧ m ∈ g.nodes
  none' : r = none → ∀ x ∈ seen', x ∉ seen → ¬ Eligible g res f used x

theorem candLoop_spec (hwf : g.WF) {fuel : Nat}
    (hrec : ∀ m seen, m ∈ g.nodes → unseen g seen < fuel →
      ∃ r seen', findCand g res f used fuel m seen = some (r, seen') ∧
        FRes g res f used seen r seen' ∧ (r = none → Eligible g res f used m → m ∈ seen')) :
    ∀ (es : List Edge) (seen : List Node), (∀ e ∈ es, e ∈ g.edges) → unseen g seen < fuel →
      ∃ r seen', candLoop (findCand g res f used fuel) es seen = some (r, seen') ∧
        FRes g res f used seen r seen' := by
  intro es
  induction es with
  | nil => intro seen _ _; exact ⟨none, seen, rfl, fun _ h => h, by simp, by simp_all⟩
  | cons e es ih =>
    intro seen hes hf
    obtain ⟨r, seen', h1, h2, _⟩ := hrec e.tgt seen (hwf.closed _ (hes e (by simp))).2 hf
    cases r with
    | some m => exact ⟨some m, seen', by simp [candLoop, h1], h2⟩
    | none =>
      obtain ⟨r2, seen2, h3, h4⟩ := ih seen' (fun e' he' => hes e' (by simp [he']))
        (Nat.lt_of_le_of_lt (unseen_mono h2.mono) hf)
      refine ⟨r2, seen2, by simp [candLoop, h1, h3], fun x hx => h4.mono x (h2.mono x hx), h4.found, ?_⟩
      intro hr x hx hxs
      by_cases hx' : x ∈ seen'
      · exact h2.none' rfl x hx' hxs
      · exact h4.none' hr x hx hx'

theorem findCand_spec (hwf : g.WF) (fuel : Nat) :
    ∀ m seen, m ∈ g.nodes → unseen g seen < fuel →
      ∃ r seen', findCand g res f used fuel m seen = some (r, seen') ∧
        FRes g res f used seen r seen' ∧ (r = none → Eligible g res f used m → m ∈ seen') := by
  induction fuel with
  | zero => intro m seen _ h; omega
  | succ fuel ih =>
    intro m seen hm hf
    by_cases hskip : (f.started m || f.done m || decide (m ∈ seen)) = true
    · refine ⟨none, seen, by simp [findCand, hskip], ⟨fun _ h => h, by simp, by simp_all⟩, ?_⟩
      intro _ hE
      simpa [hE.notStarted, hE.notDone] using hskip
    · have hs : f.started m = false ∧ f.done m = false ∧ m ∉ seen := by
        simp at hskip; exact ⟨hskip.1.1, hskip.1.2, hskip.2⟩
      obtain ⟨r, seen', h1, h2⟩ := candLoop_spec hwf ih (filterEdges .after (g.outEdges m)) (m :: seen)
        (fun e he => (mem_filterEdges_out.1 he).1) (by have := unseen_lt hm hs.2.2; omega)
      have hmono : ∀ x ∈ seen, x ∈ seen' := fun x hx => h2.mono x (by simp [hx])
      have hmem : m ∈ seen' := h2.mono m (by simp)
      cases r with
      | some r =>
        refine ⟨some r, seen', ?_, ⟨hmono, h2.found, by simp⟩, by simp⟩
        unfold findCand
        rw [if_neg hskip]
        simp only [h1]
      | none =>
        by_cases hc : (!allDone f (filterEdges .after (g.outEdges m)) ||
            anyResourceUsed (res m) used) = true
        · have hne : ¬ Eligible g res f used m := by
            intro hE
            simp only [Bool.or_eq_true, Bool.not_eq_true'] at hc
            rcases hc with h | h
            · rw [allDone_iff.2 hE.predsDone] at h; simp at h
            · obtain ⟨r, hr, hr'⟩ := anyResourceUsed_iff.1 h
              exact hE.resFree r hr hr'
          refine ⟨none, seen', ?_, ⟨hmono, by simp, ?_⟩, fun _ _ => hmem⟩
          · unfold findCand
            rw [if_neg hskip]
            simp only [h1, hc, if_true]
          · intro _ x hx hxs
            by_cases hxm : x = m
            · subst hxm; exact hne
            · exact h2.none' rfl x hx (by simp [hxm, hxs])
        · have hE : Eligible g res f used m := by
            simp only [Bool.or_eq_true, Bool.not_eq_true', not_or, Bool.not_eq_false,
              Bool.not_eq_true] at hc
            refine ⟨hs.1, hs.2.1, allDone_iff.1 hc.1, ?_⟩
            intro r hr hr'
            have := anyResourceUsed_iff.2 ⟨r, hr, hr'⟩
            rw [this] at hc; simp at hc
          refine ⟨some m, seen', ?_, ⟨hmono, ?_, by simp⟩, by simp⟩
          · unfold findCand
            rw [if_neg hskip]
            simp only [h1, hc, if_false]
            simp
          · intro x hx; simp at hx; subst hx; exact ⟨hE, hm⟩

theorem findCandTop_spec (hwf : g.WF) :
    ∀ (cs seen : List Node), (∀ c ∈ cs, c ∈ g.nodes) →
      (∀ x ∈ seen, ¬ Eligible g res f used x) →
      ∃ r, findCandTop g res f used (g.nodes.length + 1) cs seen = some r ∧
        (∀ m, r = some m → Eligible g res f used m ∧ m ∈ g.nodes) ∧
        (r = none → ∀ c ∈ cs, ¬ Eligible g res f used c) := by
  intro cs
  induction cs with
  | nil => intro seen _ _; exact ⟨none, rfl, by simp, by simp⟩
  | cons c cs ih =>
    intro seen hcs hseen
    obtain ⟨r, seen', h1, h2, h3⟩ := findCand_spec (res := res) (f := f) (used := used) hwf
      (g.nodes.length + 1) c seen (hcs c (by simp)) (Nat.lt_succ_of_le (unseen_le _ _))
    cases r with
    | some m => exact ⟨some m, by simp [findCandTop, h1], h2.found, by simp⟩
    | none =>
      have hseen' : ∀ x ∈ seen', ¬ Eligible g res f used x := by
        intro x hx
        by_cases hxs : x ∈ seen
        · exact hseen x hxs
        · exact h2.none' rfl x hx hxs
      obtain ⟨r2, h4, h5, h6⟩ := ih seen' (fun x hx => hcs x (by simp [hx])) hseen'
      refine ⟨r2, by simp [findCandTop, h1, h4], h5, ?_⟩
      intro hr x hx
      rcases List.mem_cons.1 hx with rfl | hx
      · intro hE; exact hseen' x (h3 rfl hE) hE
      · exact h6 hr x hx

/-- `find_candidate` returns an eligible node if there is one among `toProcess`, and only
eligible nodes. -/
theorem findCandidate_spec (hwf : g.WF) {tp : List Node} (htp : ∀ n ∈ tp, n ∈ g.nodes) :
    ∃ r, findCandidate g res f used tp = some r ∧
      (∀ m, r = some m → Eligible g res f used m ∧ m ∈ g.nodes) ∧
      (r = none → ∀ c ∈ tp, ¬ Eligible g res f used c) :=
  findCandTop_spec hwf tp [] htp (by simp)

end

end Joque
