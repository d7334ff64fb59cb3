import Verif.Proof.InsertSet3

/-! # `insert_set` with and without rehashing -/

namespace Joque

/-- the same environment, in which no insertion rehashes -/
def BEnv.quiet (E : BEnv) : BEnv := { E with rehash := fun _ => false }

/-- an insertion into a map of `m` up to `n - 1` elements rehashes -/
def Hit (E : BEnv) (m n : Nat) : Prop := ∃ k, m ≤ k ∧ k < n ∧ E.rehash k = true

/-- names are there once, and for every node -/
def TmpOK (s : BSt) : Prop :=
  (s.tmp.map Prod.fst).Nodup ∧ ∀ t ∈ s.index.map Prod.fst, t ∈ s.tmp.map Prod.fst

/-- `o` is what becomes of the quiet outcome `o'` -/
def BSim (E : BEnv) (s : BSt) (o o' : BOut) : Prop :=
  ∀ s', o' = .ok s' → (TmpOK s → TmpOK s') ∧ s.tmp.length ≤ s'.tmp.length ∧
    (Hit E s.tmp.length s'.tmp.length → o = .ub) ∧
    (¬ Hit E s.tmp.length s'.tmp.length → o = .ok s')

theorem BSim.refl (E : BEnv) (s : BSt) : BSim E s (.ok s) (.ok s) := by
  rintro s' ⟨⟩
  exact ⟨id, Nat.le_refl _, fun ⟨k, h1, h2, _⟩ => absurd h2 (by omega), fun _ => rfl⟩

theorem addEdge_tmp {s s' : BSt} {t d : TaskId} {k : EKind} (h : s.addEdge t d k = some s') :
    s'.tmp = s.tmp ∧ s'.index = s.index := by
  unfold BSt.addEdge at h
  split at h
  · cases h; exact ⟨rfl, rfl⟩
  · cases h

theorem addDep_tmp {s s' : BSt} {t d : TaskId} (h : s.addDep t d = some s') :
    s'.tmp = s.tmp ∧ s'.index = s.index := by
  unfold BSt.addDep at h
  simp only [Option.bind_eq_some_iff] at h
  obtain ⟨a, ha, b, hb, hc⟩ := h
  have h1 := addEdge_tmp ha
  have h2 := addEdge_tmp hb
  have h3 := addEdge_tmp hc
  exact ⟨h3.1.trans (h2.1.trans h1.1), h3.2.trans (h2.2.trans h1.2)⟩

theorem TmpOK.congr {s s' : BSt} (h1 : s'.tmp = s.tmp) (h2 : s'.index = s.index) (h : TmpOK s) :
    TmpOK s' := by
  unfold TmpOK at *
  rw [h1, h2]; exact h

/-- two parts, one after the other -/
theorem Hit.split {E : BEnv} {a b c : Nat} (hab : a ≤ b) (hbc : b ≤ c) :
    Hit E a c ↔ Hit E a b ∨ Hit E b c := by
  constructor
  · rintro ⟨k, h1, h2, h3⟩
    by_cases h : k < b
    · exact .inl ⟨k, h1, h, h3⟩
    · exact .inr ⟨k, by omega, h2, h3⟩
  · rintro (⟨k, h1, h2, h3⟩ | ⟨k, h1, h2, h3⟩)
    · exact ⟨k, h1, by omega, h3⟩
    · exact ⟨k, by omega, h2, h3⟩

theorem depsLoop_sim {E : BEnv} {r r' : TaskId → BSt → BOut} (hr : ∀ d s, BSim E s (r d s) (r' d s))
    (t : TaskId) : ∀ (ds : List TaskId) (s : BSt), BSim E s (depsLoop r t ds s) (depsLoop r' t ds s) := by
  intro ds
  induction ds with
  | nil => intro s; exact BSim.refl E s
  | cons d ds ih =>
    intro s s' hs'
    unfold depsLoop at hs'
    cases h1 : r' d s with
    | ub => rw [h1] at hs'; cases hs'
    | outOfFuel => rw [h1] at hs'; cases hs'
    | ok s1 =>
      rw [h1] at hs'
      simp only at hs'
      obtain ⟨a1, a2, a3, a4⟩ := hr d s s1 h1
      cases h2 : s1.addDep t d with
      | none => rw [h2] at hs'; cases hs'
      | some s2 =>
        rw [h2] at hs'
        obtain ⟨b1, b2, b3, b4⟩ := ih s2 s' hs'
        obtain ⟨e1, e2⟩ := addDep_tmp h2
        rw [e1] at b2 b3 b4
        refine ⟨fun h => b1 ((a1 h).congr e1 e2), Nat.le_trans a2 b2, fun h => ?_, fun h => ?_⟩
        · unfold depsLoop
          rcases (Hit.split a2 b2).1 h with h | h
          · rw [a3 h]
          · by_cases h0 : Hit E s.tmp.length s1.tmp.length
            · rw [a3 h0]
            · rw [a4 h0]; simp only [h2]; exact b3 h
        · rw [Hit.split a2 b2, not_or] at h
          unfold depsLoop
          rw [a4 h.1]
          simp only [h2]
          exact b4 h.2

theorem emplace_tmp {E : BEnv} {s : BSt} {t : TaskId} {n : Str} (h : TmpOK s)
    (ht : t ∈ s.tmp.map Prod.fst) : TmpOK (s.emplace E t n) := by
  refine ⟨h.1, fun u hu => ?_⟩
  rcases List.mem_cons.1 (show u ∈ t :: s.index.map Prod.fst from hu) with rfl | hu
  · exact ht
  · exact h.2 u hu

theorem bdfs_sim (E : BEnv) : ∀ (fuel : Nat) (t : TaskId) (s : BSt),
    BSim E s (bdfs E fuel t s) (bdfs E.quiet fuel t s) := by
  intro fuel
  induction fuel with
  | zero => intro t s s' h; cases h
  | succ fuel ih =>
    intro t s s' hs'
    unfold bdfs at hs' ⊢
    cases h1 : mget s.index t with
    | some a =>
      rw [h1] at hs'
      exact BSim.refl E s s' hs'
    | none =>
      rw [h1] at hs'
      cases h2 : mget s.tmp t with
      | some n =>
        rw [h2] at hs'
        have := depsLoop_sim (E := E) ih t (E.store t).dependsOn (s.emplace E t n) s' hs'
        refine ⟨fun h => this.1 (emplace_tmp h ?_), this.2⟩
        exact mget_isSome.1 (by rw [h2]; rfl)
      | none =>
        rw [h2] at hs'
        have hs2 : depsLoop (bdfs E.quiet fuel) t (E.store t).dependsOn
            (BSt.emplace E { s with tmp := (t, []) :: s.tmp } t []) = .ok s' := by
          exact hs'
        obtain ⟨c1, c2, c3, c4⟩ := depsLoop_sim (E := E) ih t (E.store t).dependsOn
          (BSt.emplace E { s with tmp := (t, []) :: s.tmp } t []) s' hs2
        have hl : (BSt.emplace E { s with tmp := (t, []) :: s.tmp } t []).tmp.length =
            s.tmp.length + 1 := rfl
        rw [hl] at c2 c3 c4
        refine ⟨fun h => c1 (emplace_tmp ⟨?_, ?_⟩ ?_), by omega, fun h => ?_, fun h => ?_⟩
        · rw [List.map_cons, List.nodup_cons]
          refine ⟨fun hm => ?_, h.1⟩
          have := mget_isSome.2 hm
          rw [h2] at this
          cases this
        · intro u hu
          exact List.mem_cons_of_mem _ (h.2 u hu)
        · simp
        · cases hre : E.rehash s.tmp.length with
          | true => simp
          | false =>
            simp only [Bool.false_eq_true, if_false]
            apply c3
            obtain ⟨k, k1, k2, k3⟩ := h
            refine ⟨k, ?_, k2, k3⟩
            rcases Nat.lt_or_eq_of_le k1 with h | h
            · omega
            · rw [← h, hre] at k3; cases k3
        · have hre : E.rehash s.tmp.length = false := by
            cases hre : E.rehash s.tmp.length with
            | true => exact absurd ⟨_, Nat.le_refl _, by omega, hre⟩ h
            | false => rfl
          simp only [hre, Bool.false_eq_true, if_false]
          exact c4 fun ⟨k, k1, k2, k3⟩ => h ⟨k, by omega, k2, k3⟩

theorem tmpLoop_sim (E : BEnv) (fuel : Nat) (filter : Str) : ∀ (visit : List TaskId) (s : BSt),
    BSim E s (tmpLoop E fuel filter visit s) (tmpLoop E.quiet fuel filter visit s) := by
  intro visit
  induction visit with
  | nil => intro s; exact BSim.refl E s
  | cons t ts ih =>
    intro s s' hs'
    unfold tmpLoop at hs' ⊢
    cases h1 : mget s.tmp t with
    | none => rw [h1] at hs'; exact ih s s' hs'
    | some n =>
      rw [h1] at hs'
      simp only at hs' ⊢
      cases hc : containsStr n filter with
      | false => rw [hc] at hs'; exact ih s s' hs'
      | true =>
        rw [hc] at hs'
        simp only [if_true] at hs' ⊢
        cases h2 : bdfs E.quiet fuel t s with
        | ub => rw [h2] at hs'; cases hs'
        | outOfFuel => rw [h2] at hs'; cases hs'
        | ok s1 =>
          rw [h2] at hs'
          obtain ⟨a1, a2, a3, a4⟩ := bdfs_sim E fuel t s s1 h2
          obtain ⟨b1, b2, b3, b4⟩ := ih s1 s' hs'
          refine ⟨fun h => b1 (a1 h), Nat.le_trans a2 b2, fun h => ?_, fun h => ?_⟩
          · by_cases h0 : Hit E s.tmp.length s1.tmp.length
            · rw [a3 h0]
            · rw [a4 h0]
              exact b3 (((Hit.split a2 b2).1 h).resolve_left h0)
          · rw [Hit.split a2 b2, not_or] at h
            rw [a4 h.1]
            exact b4 h.2

theorem addSoft_tmp (n : Node) (k : EKind) : ∀ (l : List TaskId) (s : BSt),
    (addSoft s n k l).tmp = s.tmp ∧ (addSoft s n k l).index = s.index := by
  intro l
  induction l with
  | nil => intro s; exact ⟨rfl, rfl⟩
  | cons d ds ih =>
    intro s
    unfold addSoft
    split
    · exact ih s
    · exact ih _

theorem indexLoop_tmp (E : BEnv) : ∀ (l : List TaskId) (s : BSt),
    (indexLoop E l s).tmp = s.tmp ∧ (indexLoop E l s).index = s.index := by
  intro l
  induction l with
  | nil => intro s; exact ⟨rfl, rfl⟩
  | cons t ts ih =>
    intro s
    unfold indexLoop
    split
    · exact ih s
    · rename_i n _
      have h1 := addSoft_tmp n .after (E.store t).runAfter s
      have h2 := addSoft_tmp n .invalidatedBy (E.store t).invalidatedBy
        (addSoft s n .after (E.store t).runAfter)
      have h3 := ih (addSoft (addSoft s n .after (E.store t).runAfter) n .invalidatedBy
        (E.store t).invalidatedBy)
      exact ⟨h3.1.trans (h2.1.trans h1.1), h3.2.trans (h2.2.trans h1.2)⟩

theorem indexLoop_quiet (E : BEnv) : ∀ (l : List TaskId) (s : BSt),
    indexLoop E.quiet l s = indexLoop E l s := by
  intro l
  induction l with
  | nil => intro s; rfl
  | cons t ts ih =>
    intro s
    unfold indexLoop
    split
    · exact ih s
    · exact ih _

/-- `insert_set` as a whole -/
theorem insertSet_sim (E : BEnv) (fuel : Nat) (g : Dag) (ts : TaskSet) (filter : Str)
    (visit : List TaskId) (order : List TaskId → List TaskId)
    (hnd : ((forEachTask ts).map Prod.snd).Nodup) (s' : BSt)
    (h : insertSet E.quiet fuel g ts filter visit order = .ok s') :
    TmpOK s' ∧
    (Hit E (forEachTask ts).length s'.tmp.length → insertSet E fuel g ts filter visit order = .ub) ∧
    (¬ Hit E (forEachTask ts).length s'.tmp.length →
      insertSet E fuel g ts filter visit order = .ok s') := by
  unfold insertSet at h ⊢
  simp only at h ⊢
  cases h1 : tmpLoop E.quiet fuel filter visit
      { dag := g, tmp := (forEachTask ts).map (fun e => (e.2, e.1)), index := [] } with
  | ub => rw [h1] at h; cases h
  | outOfFuel => rw [h1] at h; cases h
  | ok s1 =>
    rw [h1] at h
    simp only [indexLoop_quiet, BOut.ok.injEq] at h
    obtain ⟨a1, a2, a3, a4⟩ := tmpLoop_sim E fuel filter visit _ s1 h1
    simp only [List.length_map] at a2 a3 a4
    obtain ⟨e1, e2⟩ := indexLoop_tmp E (order (s1.index.map Prod.fst)) s1
    rw [h] at e1 e2
    rw [e1]
    refine ⟨(a1 ⟨?_, by simp⟩).congr e1 e2, fun hh => ?_, fun hh => ?_⟩
    · rw [List.map_map]; exact hnd
    · rw [a3 hh]
    · rw [a4 hh]; simp only; rw [h]

end Joque
