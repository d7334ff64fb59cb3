import Verif.Proof.ExecInv3
import Verif.Proof.Cycle

namespace Joque

/-- A nonempty finite set has a minimal element under an acyclic relation. -/
theorem exists_minimal {α : Type} {R : α → α → Prop} (hac : ¬ ∃ n, Relation.TransGen R n n) :
    ∀ (k : Nat) (l : List α), l.length ≤ k → l ≠ [] → ∃ c ∈ l, ∀ m ∈ l, ¬ R c m := by
  classical
  intro k
  induction k with
  | zero => intro l hl hne; exact absurd (List.length_eq_zero_iff.1 (Nat.le_zero.1 hl)) hne
  | succ k ih =>
    intro l hl hne
    obtain ⟨c, hc⟩ := List.exists_mem_of_ne_nil l hne
    by_cases h : l.filter (fun m => Relation.TransGen R c m) = []
    · refine ⟨c, hc, fun m hm hr => ?_⟩
      have : m ∈ l.filter (fun m => Relation.TransGen R c m) := by
        simp [hm, Relation.TransGen.single hr]
      rw [h] at this; cases this
    · have hlt : (l.filter (fun m => Relation.TransGen R c m)).length < l.length := by
        rw [List.length_filter_lt_length_iff_exists]
        refine ⟨c, hc, ?_⟩
        simp only [decide_eq_true_eq]
        exact fun h => hac ⟨c, h⟩
      obtain ⟨c', hc', hmin⟩ := ih _ (by omega) h
      simp only [List.mem_filter, decide_eq_true_eq] at hc' hmin
      refine ⟨c', hc'.1, fun m hm hr => ?_⟩
      exact hmin m ⟨hm, hc'.2.tail hr⟩ hr

/-- Nothing in flight and something left: some node is eligible. -/
theorem exists_eligible {C : Cfg} (hwf : C.dag.WF) {s : St} (hI : Inv C s)
    (hact : s.phase.active = true) (hh : handles s = []) (hne : s.toProcess ≠ []) :
    ∃ c ∈ s.toProcess, Eligible C.dag C.resources s.flags s.used c := by
  obtain ⟨c, hc, hmin⟩ := exists_minimal (R := AfterEdge C.dag) (hI.acyc hact)
    s.toProcess.length s.toProcess (Nat.le_refl _) hne
  refine ⟨c, hc, ?_, ?_, ?_, ?_⟩
  · exact hI.tpIdle c hc
  · cases hd : s.flags.done c
    · rfl
    · have h1 := hI.nodup
      unfold allNodes at h1
      rw [List.nodup_append] at h1
      exact absurd rfl (h1.2.2 c (List.mem_append_right _ ((hI.doneIff c).1 hd)) c hc)
  · intro m hm
    have hmn : m ∈ C.dag.nodes := (hwf.closed _ hm).2
    have := hI.part hact m hmn
    unfold allNodes at this
    rw [hh] at this
    simp only [List.map_nil, List.nil_append, List.mem_append] at this
    rcases this with h1 | h1
    · exact (hI.doneIff m).2 h1
    · exact absurd hm (hmin m h1)
  · intro r _ hr
    obtain ⟨h, h1, _⟩ := hI.usedSub hact r hr
    rw [hh] at h1; cases h1

theorem perm_serase {n : Node} {l : List Node} (hn : n ∈ l) (hs : l.Nodup) :
    (n :: serase n l).Perm l := by
  rw [List.perm_ext_iff_of_nodup]
  · intro a
    simp only [List.mem_cons, mem_serase]
    constructor
    · rintro (rfl | h)
      · exact hn
      · exact h.1
    · intro h
      by_cases ha : a = n
      · exact .inl ha
      · exact .inr ⟨h, ha⟩
  · rw [List.nodup_cons]
    exact ⟨by simp, hs.filter _⟩
  · exact hs

/-- a candidate is created -/
theorem inv_picked {C : Cfg} {s : St} (hI : Inv C s) (hp : s.phase = .pick) {n : Node}
    (hcap : ¬ (s.todo.length ≥ C.threadCount ∧ C.threadCount ≠ 0))
    (hE : Eligible C.dag C.resources s.flags s.used n) (hn : n ∈ C.dag.nodes) :
    Inv C { s with
      toProcess := serase n s.toProcess
      todo := s.todo ++ [⟨n, { node := n, launched := false, start := 0 }⟩]
      phase := .susp false } := by
  have hact : s.phase.active = true := by rw [hp]; rfl
  obtain ⟨hk, hpa⟩ := hI.notClean hact (by rw [hp]; rfl)
  have hh : handles s = s.todo.map Slot.h := by simp [handles, hk]
  have hlau : ∀ h ∈ handles s, h.launched = true := by
    intro h hm; rw [hh] at hm
    obtain ⟨sl, h1, rfl⟩ := List.mem_map.1 hm
    exact hI.pickLaunched hp sl h1
  have htp : n ∈ s.toProcess := by
    have := hI.part hact n hn
    unfold allNodes at this
    simp only [List.mem_append] at this
    rcases this with (h1 | h1) | h1
    · obtain ⟨h, h2, rfl⟩ := List.mem_map.1 h1
      have := (hI.launched h h2 (hlau h h2)).1
      rw [hE.notStarted] at this; cases this
    · have := (hI.doneIff n).2 h1
      rw [hE.notDone] at this; cases this
    · exact h1
  have hidle : s.worker n = .idle := by
    by_contra hc
    rcases hI.workerOnly n hc with h1 | ⟨h, h1, rfl, h3⟩
    · have := (hI.doneIff n).2 h1.1
      rw [hE.notDone] at this; cases this
    · have := (hI.launched h h1 h3).1
      rw [hE.notStarted] at this; cases this
  generalize hs' : ({ s with
      toProcess := serase n s.toProcess
      todo := s.todo ++ [⟨n, { node := n, launched := false, start := 0 }⟩]
      phase := .susp false } : St) = s'
  have hh' : handles s' = handles s ++ [{ node := n, launched := false, start := 0 }] := by
    subst hs'; simp [handles]
  have hcase : ∀ h ∈ handles s', h ∈ handles s ∨
      h = { node := n, launched := false, start := 0 } := by
    intro h hm; rw [hh'] at hm; simpa using hm
  have htp' : s'.toProcess = serase n s.toProcess := by subst hs'; rfl
  have hperm : (allNodes s').Perm (allNodes s) := by
    have hr : recNodes s' = recNodes s := by subst hs'; rfl
    unfold allNodes
    rw [hh', hr, htp']
    simp only [List.map_append, List.map_cons, List.map_nil]
    have h1 := perm_serase htp (sorted_nodup hI.tpSorted)
    refine List.Perm.trans ?_ (List.Perm.append_left _ h1)
    generalize (handles s).map Handle.node = A
    generalize recNodes s = D
    generalize serase n s.toProcess = T
    have h2 : (A ++ [n] ++ D ++ T).Perm (n :: (A ++ D ++ T)) := by
      simp only [List.append_assoc]
      exact List.perm_middle
    have h3 : (A ++ D ++ n :: T).Perm (n :: (A ++ D ++ T)) := List.perm_middle
    exact h2.trans h3.symm
  have hph : s'.phase = .susp false := by subst hs'; rfl
  constructor
  · simp [hph]
  · simp [hph]
  · simp [hph]
  · rw [htp']; exact serase_sorted hI.tpSorted
  · exact (hperm.nodup_iff).2 hI.nodup
  · exact fun n hn => hI.inNodes n (hperm.mem_iff.1 hn)
  · exact fun _ n hn => hperm.mem_iff.2 (hI.part hact n hn)
  · subst hs'; exact hI.doneIff
  · subst hs'; exact hI.failedIff
  · rw [htp']; intro m hm; rw [mem_serase] at hm; subst hs'; exact hI.tpIdle m hm.1
  · intro h hm hl
    rcases hcase h hm with h1 | rfl
    · subst hs'; exact hI.launched h h1 hl
    · cases hl
  · intro _ h hm hl
    rcases hcase h hm with h1 | rfl
    · rw [hlau h h1] at hl; cases hl
    · subst hs'; exact ⟨hE.notStarted, hidle, hE.resFree⟩
  · intro h hm m hm2
    rcases hcase h hm with h1 | rfl
    · subst hs'; exact hI.preds h h1 m hm2
    · subst hs'; exact hE.predsDone m hm2
  · intro m hm
    have hm' : s.worker m ≠ .idle := by subst hs'; exact hm
    rcases hI.workerOnly m hm' with h1 | ⟨h, h1, h2⟩
    · left; subst hs'; exact h1
    · right; exact ⟨h, by rw [hh']; exact List.mem_append_left _ h1, h2⟩
  · subst hs'; exact hI.seq
  · intro _ x hx
    have hx' : x ∈ s.used := by subst hs'; exact hx
    obtain ⟨h, h1, h2⟩ := hI.usedSub hact x hx'
    exact ⟨h, by rw [hh']; exact List.mem_append_left _ h1, h2⟩
  · intro h1 m1 h2 m2 l1 l2
    rcases hcase h1 m1 with k1 | rfl
    · rcases hcase h2 m2 with k2 | rfl
      · exact hI.excl h1 k1 h2 k2 l1 l2
      · cases l2
    · cases l1
  · subst hs'
    intro sl hsl
    simp only [List.dropLast_concat] at hsl
    exact hI.pickLaunched hp sl hsl
  · subst hs'; exact hI.keptLaunched
  · simp [hph]
  · intro h0
    rw [hh', hh]; simp; simp at hcap
    have := hcap; omega
  · intro h0
    rw [hh']
    have : handles s = [] := by
      cases hc : handles s with
      | nil => rfl
      | cons h t =>
        have hm : h ∈ handles s := by rw [hc]; simp
        exact absurd (hI.seq h0 h.node) (hI.launched h hm (hlau h hm)).2.1
    simp [this]
  · subst hs'; exact hI.passedLen
  · subst hs'; exact fun _ _ => ⟨hk, hpa⟩
  · intro r hr
    subst hs'
    exact (hI.recs r hr).mono (Nat.le_refl _) (fun _ h => h) rfl (fun _ h => h) (fun _ _ => rfl)
        (fun _ h => .inl h)
  · subst hs'; exact hI.stats
  · subst hs'; exact fun _ => hI.total hact
  · subst hs'; exact hI.inval
  · subst hs'; exact fun _ => hI.invalActive hact
  · exact fun _ => hI.acyc hact
  · exact fun _ => hI.answers hact
  · simp [hph, Phase.draining]
  · simp [hph]
  · simp [hph]

theorem Inv.tp_nodes {C : Cfg} {s : St} (hI : Inv C s) : ∀ n ∈ s.toProcess, n ∈ C.dag.nodes := by
  intro n hn; apply hI.inNodes; unfold allNodes; simp [hn]

theorem inv_pick {C : Cfg} (hwf : C.dag.WF) {s : St} (hI : Inv C s) (hp : s.phase = .pick) :
    Inv C (pickStep C s) := by
  have hact : s.phase.active = true := by rw [hp]; rfl
  have hsusp : Inv C { s with phase := .susp false } :=
    hI.phase rfl rfl rfl rfl rfl rfl rfl rfl (Nat.le_refl _) (by simp) (by simp) (by simp)
      (by simp [hact]) (by simp) (by simp [hp, Phase.isClean]) (by simp [Phase.draining])
      (by simp) (by simp [hp]) (by simp)
  unfold pickStep
  split
  · exact hsusp
  · rename_i hcap
    obtain ⟨r, hr, h1, h2⟩ := findCandidate_spec (res := C.resources) (f := s.flags)
      (used := s.used) hwf hI.tp_nodes
    rw [hr]
    cases r with
    | some n => exact inv_picked hI hp hcap (h1 n rfl).1 (h1 n rfl).2
    | none =>
      simp only
      split
      · rename_i hte
        obtain ⟨hk, _⟩ := hI.notClean hact (by rw [hp]; rfl)
        obtain ⟨c, hc, hE⟩ := exists_eligible hwf hI hact (by simp [handles, hk, hte])
          (hI.tpNonempty (.inr hp))
        exact absurd hE (h2 rfl c hc)
      · exact hsusp

end Joque
