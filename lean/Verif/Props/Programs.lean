import Verif.Props.UnitTests
import Verif.Model.Example
import Verif.Props.Format
import Verif.Model.PrintVisitor
import Verif.Spec.Terminal

/-!
# C75: the documented programs
-/

namespace Joque

/-- An execution does nothing before its first `tick()`: nothing can be observed, whatever happens in
between. -/
theorem created_idle (C : Cfg) (ms : List Move)
    (hms : ∀ m ∈ ms, m ≠ .ctl ∧ m ≠ .ctlFail ∧ (∀ f, m ≠ .fault f) ∧ m ≠ .destroy) :
    exec C ms = St.init := by
  induction ms using List.reverseRecOn with
  | nil => rfl
  | append_singleton ms m ih =>
    have := ih (fun x hx => hms x (List.mem_append_left _ hx))
    obtain ⟨h1, h2, h3, h4⟩ := hms m (by simp)
    unfold exec at this ⊢
    rw [List.foldl_append, this]
    cases m with
    | ctl => exact absurd rfl h1
    | ctlFail => exact absurd rfl h2
    | fault f => exact absurd rfl (h3 f)
    | destroy => exact absurd rfl h4
    | begin n => rfl
    | finish n => rfl

/-- **C75**, the last line of the example in README.md is `joque::exec( ts, 1 );`: an execution that is
destroyed before it is ever resumed does nothing at all. -/
theorem C75_discarded (C : Cfg) (hwf : C.dag.WF) (ms ms' : List Move)
    (hms : ∀ m ∈ ms, m ≠ .ctl ∧ m ≠ .ctlFail ∧ (∀ f, m ≠ .fault f) ∧ m ≠ .destroy) :
    (exec C ms).trace = [] ∧ (exec C (ms ++ [.destroy] ++ ms')).trace = [] := by
  have h0 := created_idle C ms hms
  refine ⟨by rw [h0]; rfl, ?_⟩
  obtain ⟨_, ⟨post, h1, h2⟩, _⟩ := C19_destroy C hwf ms ms' (by rw [h0]; exact .inl rfl)
  rw [h1, h0]
  cases post with
  | nil => rfl
  | cons e es =>
    obtain ⟨n, hn, _⟩ := h2 e (by simp)
    rw [h0] at hn
    cases hn

/-- **C75**, and if that execution were run: the tasks of the example in README.md depend on each other,
so `run()` throws and no job is ever started. -/
theorem C75_readme (E : BEnv) (st : Store) (A B : TaskId) (ja jb : Job) (hAB : A ≠ B)
    (hE : E.store = readmeStore A B ja jb st) {univ visit order s}
    (h : Run E (readmeSet A B) univ visit order [] s) (tc : Nat) :
    (exec (execCfg E.store s.dag tc) [.ctl, .ctl]).phase = .threw .cycle ∧
    ∀ ms n, ¬ JobBegan (exec (execCfg E.store s.dag tc) ms).trace n := by
  have hA : E.store A = { job := some ja, dependsOn := [B], runAfter := [], invalidatedBy := []
                          resources := [], hidden := false } := by
    rw [hE, readmeStore, Store.set, if_pos rfl]
  have hB : E.store B = { job := some jb, dependsOn := [A], runAfter := [], invalidatedBy := []
                          resources := [], hidden := false } := by
    rw [hE, readmeStore, Store.set, if_neg hAB.symm, Store.set, if_pos rfl]
  have hsA : Selected E.store (readmeSet A B) [] A :=
    ⟨[['A']], A, .here (by simp), List.nil_infix, .refl⟩
  have hsB : Selected E.store (readmeSet A B) [] B :=
    ⟨[['B']], B, .here (by simp), List.nil_infix, .refl⟩
  have hcyc : Cyclic s.dag := by
    rw [h.cyclic_iff]
    refine ⟨A, .head ⟨hsA, hsB, .inl ?_⟩ (.single ⟨hsB, hsA, .inl ?_⟩)⟩
    · rw [hA]; exact List.mem_singleton_self _
    · rw [hB]; exact List.mem_singleton_self _
  have hwf := h.wf tc
  exact ⟨C09_detected _ hwf hcyc, fun ms => ((C09_exact _ hwf ms).2 hcyc).2.2.1⟩

/-! ## example.cpp -/

theorem mem_mapSet {α : Type} {k : Str} {v : α} {m : List (Str × α)} {e : Str × α}
    (hm : (m.map Prod.fst).Pairwise (· < ·)) :
    e ∈ mapSet k v m ↔ e = (k, v) ∨ (e ∈ m ∧ e.1 ≠ k) := by
  induction m with
  | nil => simp [mapSet]
  | cons x m ih =>
    rw [List.map_cons, List.pairwise_cons] at hm
    have hlt : ∀ y ∈ m, x.1 < y.1 := fun y hy => hm.1 _ (List.mem_map_of_mem hy)
    unfold mapSet
    by_cases h1 : k < x.1
    · rw [if_pos h1]
      constructor
      · intro he
        rcases List.mem_cons.1 he with he | he
        · exact .inl he
        · refine .inr ⟨he, ?_⟩
          intro h3
          rw [← h3] at h1
          rcases List.mem_cons.1 he with he | he
          · rw [he] at h1; exact List.lt_irrefl _ h1
          · exact List.lt_irrefl _ (List.lt_trans h1 (hlt e he))
      · rintro (he | ⟨he, _⟩)
        · rw [he]; exact List.mem_cons_self
        · exact List.mem_cons_of_mem _ he
    · rw [if_neg h1]
      by_cases h2 : k = x.1
      · rw [if_pos h2]
        constructor
        · intro he
          rcases List.mem_cons.1 he with he | he
          · exact .inl he
          · refine .inr ⟨List.mem_cons_of_mem _ he, ?_⟩
            rintro h3
            have := hlt e he
            rw [h3, h2] at this
            exact List.lt_irrefl _ this
        · rintro (he | ⟨he, h3⟩)
          · rw [he]; exact List.mem_cons_self
          · rcases List.mem_cons.1 he with he | he
            · rw [he] at h3; exact absurd h2.symm h3
            · exact List.mem_cons_of_mem _ he
      · rw [if_neg h2, List.mem_cons, ih hm.2, List.mem_cons]
        constructor
        · rintro (he | he | ⟨he, h3⟩)
          · exact .inr ⟨.inl he, by rw [he]; exact fun h => h2 h.symm⟩
          · exact .inl he
          · exact .inr ⟨.inr he, h3⟩
        · rintro (he | ⟨he | he, h3⟩)
          · exact .inr (.inl he)
          · exact .inl he
          · exact .inr (.inr ⟨he, h3⟩)

theorem mapSet_sorted {α : Type} (k : Str) (v : α) (m : List (Str × α))
    (hm : (m.map Prod.fst).Pairwise (· < ·)) : ((mapSet k v m).map Prod.fst).Pairwise (· < ·) := by
  induction m with
  | nil => simp [mapSet]
  | cons x m ih =>
    have hm' := hm
    rw [List.map_cons, List.pairwise_cons] at hm
    have hlt : ∀ y ∈ m, x.1 < y.1 := fun y hy => hm.1 _ (List.mem_map_of_mem hy)
    unfold mapSet
    by_cases h1 : k < x.1
    · rw [if_pos h1, List.map_cons, List.pairwise_cons]
      refine ⟨fun y hy => ?_, hm'⟩
      obtain ⟨e, he, rfl⟩ := List.mem_map.1 hy
      rcases List.mem_cons.1 he with he | he
      · rw [he]; exact h1
      · exact List.lt_trans h1 (hlt e he)
    · rw [if_neg h1]
      by_cases h2 : k = x.1
      · rw [if_pos h2, List.map_cons, List.pairwise_cons]
        refine ⟨fun y hy => ?_, hm.2⟩
        obtain ⟨e, he, rfl⟩ := List.mem_map.1 hy
        show k < e.1
        rw [h2]
        exact hlt e he
      · rw [if_neg h2, List.map_cons, List.pairwise_cons]
        refine ⟨fun y hy => ?_, ih hm.2⟩
        obtain ⟨e, he, rfl⟩ := List.mem_map.1 hy
        rcases (mem_mapSet hm.2).1 he with rfl | ⟨he, _⟩
        · refine Decidable.byContradiction fun h => h2 ?_
          exact List.le_antisymm (List.not_lt.1 h) (List.not_lt.1 h1)
        · exact hlt e he

theorem showNat_inj {a b : Nat} (h : showNat a = showNat b) : a = b :=
  C50_faithful 0 a b (by rw [h])

theorem exampleKey_inj {i j : Nat} (h : exampleKey i = exampleKey j) : i = j :=
  showNat_inj (List.append_cancel_left h)

theorem genTasks_spec (addr : Nat → TaskId) (n : Nat) :
    ((genTasks addr n).map Prod.fst).Pairwise (· < ·) ∧
    ∀ e, e ∈ genTasks addr n ↔ ∃ i < n, e = (exampleKey i, addr i) := by
  induction n with
  | zero => exact ⟨List.Pairwise.nil, fun e => ⟨fun h => (List.not_mem_nil h).elim, fun ⟨i, hi, _⟩ => absurd hi (Nat.not_lt_zero i)⟩⟩
  | succ n ih =>
    have hs : genTasks addr (n + 1) = mapSet (exampleKey n) (addr n) (genTasks addr n) := by
      unfold genTasks
      rw [List.range_succ, List.foldl_append]
      rfl
    rw [hs]
    refine ⟨mapSet_sorted _ _ _ ih.1, fun e => ?_⟩
    rw [mem_mapSet ih.1, ih.2]
    constructor
    · rintro (rfl | ⟨⟨i, hi, rfl⟩, _⟩)
      · exact ⟨n, Nat.lt_succ_self n, rfl⟩
      · exact ⟨i, by omega, rfl⟩
    · rintro ⟨i, hi, rfl⟩
      by_cases hin : i = n
      · rw [hin]; exact .inl rfl
      · exact .inr ⟨⟨i, by omega, rfl⟩, fun h => hin (exampleKey_inj h)⟩


theorem exampleName_a (i : Nat) : fullName [['a'], exampleKey i] = "//a/task_".toList ++ digits i := by
  have e : "//a/task_".toList = "//".toList ++ ['a', '/', 't', 'a', 's', 'k', '_'] := by decide
  rw [e]
  unfold fullName
  generalize "//".toList = sl
  simp [List.intercalate, exampleKey, showNat, digits]

theorem exampleName_b (i : Nat) : fullName [['b'], exampleKey i] = "//b/task_".toList ++ digits i := by
  have e : "//b/task_".toList = "//".toList ++ ['b', '/', 't', 'a', 's', 'k', '_'] := by decide
  rw [e]
  unfold fullName
  generalize "//".toList = sl
  simp [List.intercalate, exampleKey, showNat, digits]

theorem exampleSet_eq (a b : Nat → TaskId) (n : Nat) : exampleSet a b n =
    .mk [] [(['a'], .mk (genTasks a n) []), (['b'], .mk (genTasks b n) [])] := by
  have h1 : ¬ (['b'] : Str) < ['a'] := by decide
  have h2 : ¬ (['b'] : Str) = ['a'] := by decide
  simp only [exampleSet, mapSet, if_neg h1, if_neg h2]

theorem example_at {a b : Nat → TaskId} {n : Nat} {p : List Str} {t : TaskId} :
    At (exampleSet a b n) p t ↔ ∃ i < n, (p = [['a'], exampleKey i] ∧ t = a i) ∨
      (p = [['b'], exampleKey i] ∧ t = b i) := by
  have leaf : ∀ {addr : Nat → TaskId} {q u}, At (.mk (genTasks addr n) []) q u ↔
      ∃ i < n, q = [exampleKey i] ∧ u = addr i := by
    intro addr q u
    constructor
    · intro h
      cases h with
      | here hm =>
        obtain ⟨i, hi, he⟩ := ((genTasks_spec addr n).2 _).1 hm
        cases he
        exact ⟨i, hi, rfl, rfl⟩
      | sub hm _ => cases hm
    · rintro ⟨i, hi, rfl, rfl⟩
      exact .here (((genTasks_spec addr n).2 _).2 ⟨i, hi, rfl⟩)
  rw [exampleSet_eq]
  constructor
  · intro h
    cases h with
    | here hm => cases hm
    | sub hm hat =>
      rcases List.mem_cons.1 hm with hm | hm
      · cases hm
        obtain ⟨i, hi, rfl, rfl⟩ := leaf.1 hat
        exact ⟨i, hi, .inl ⟨rfl, rfl⟩⟩
      · rcases List.mem_cons.1 hm with hm | hm
        · cases hm
          obtain ⟨i, hi, rfl, rfl⟩ := leaf.1 hat
          exact ⟨i, hi, .inr ⟨rfl, rfl⟩⟩
        · cases hm
  · rintro ⟨i, hi, ⟨rfl, rfl⟩ | ⟨rfl, rfl⟩⟩
    · exact .sub (List.mem_cons_self) (leaf.2 ⟨i, hi, rfl, rfl⟩)
    · exact .sub (List.mem_cons_of_mem _ List.mem_cons_self) (leaf.2 ⟨i, hi, rfl, rfl⟩)

/-- Where the compiler puts the tasks of the example: different objects, different addresses. -/
structure Placed (a b : Nat → TaskId) : Prop where
  injA : ∀ i j, a i = a j → i = j
  injB : ∀ i j, b i = b j → i = j
  apart : ∀ i j, a i ≠ b j

/-- **C75**, the map of the example program is what `std::map` promises: a proper task set. -/
theorem C75_example_set (a b : Nat → TaskId) (hp : Placed a b) (n : Nat) :
    (exampleSet a b n).WF := by
  constructor
  · rw [exampleSet_eq]
    refine .mk List.Pairwise.nil (show ([['a'], ['b']] : List Str).Pairwise (· < ·) by decide) fun e he => ?_
    have leaf : ∀ addr, (TaskSet.mk (genTasks addr n) []).Keys := fun addr =>
      .mk (genTasks_spec addr n).1 List.Pairwise.nil fun e he => by cases he
    rcases List.mem_cons.1 he with rfl | he
    · exact leaf a
    · rcases List.mem_cons.1 he with rfl | he
      · exact leaf b
      · cases he
  · intro p q t h1 h2
    obtain ⟨i, _, ⟨rfl, rfl⟩ | ⟨rfl, rfl⟩⟩ := example_at.1 h1 <;>
      obtain ⟨j, _, ⟨rfl, h4⟩ | ⟨rfl, h4⟩⟩ := example_at.1 h2
    · rw [hp.injA _ _ h4]
    · exact absurd h4 (hp.apart _ _)
    · exact absurd h4.symm (hp.apart _ _)
    · rw [hp.injB _ _ h4]

/-- **C75**, example.cpp: called with a number `n` it executes a set of 2n tasks.  With any thread count
and fair schedule `run()` returns, and the record has exactly one entry for each of the tasks
`//a/task_i` and `//b/task_i`, i < n, all OK. -/
theorem C75_example (a b : Nat → TaskId) (hp : Placed a b) (prog arg : Str) (n : Nat)
    (hn : stoi arg = some (n : Int)) :
    exampleMain a b [prog, arg] = .executes (exampleSet a b n) ∧
    ∀ E univ visit order s,
      (∀ i < n, E.store (a i) = exampleTask ∧ E.store (b i) = exampleTask) →
      Run E (exampleSet a b n) univ visit order [] s →
      AlwaysReturns E s fun rec =>
        (rec.runs.map fun r => (r.name, r.t)).Perm
          ((List.range n).map (fun i => ("//a/task_".toList ++ digits i, a i)) ++
            (List.range n).map (fun i => ("//b/task_".toList ++ digits i, b i))) ∧
        rec.totalCount = 2 * n ∧ ∀ r ∈ rec.runs, r.verdict = ⟨.ok, 0, []⟩ := by
  constructor
  · simp only [exampleMain, hn]
    rw [if_neg (by omega)]
    simp
  intro E univ visit order s hst h
  have hsel : ∀ t, Selected E.store (exampleSet a b n) [] t ↔
      ∃ i < n, t = a i ∨ t = b i := by
    intro t
    constructor
    · rintro ⟨p, u, hat, _, hr⟩
      obtain ⟨i, hi, hu⟩ := example_at.1 hat
      have hu' : u = a i ∨ u = b i := hu.imp And.right And.right
      have hd : (E.store u).dependsOn = [] := by
        rcases hu' with rfl | rfl
        · rw [(hst i hi).1]; rfl
        · rw [(hst i hi).2]; rfl
      rcases Relation.ReflTransGen.cases_head hr with rfl | ⟨c, hc, _⟩
      · exact ⟨i, hi, hu'⟩
      · unfold DependsOn at hc
        rw [hd] at hc
        cases hc
    · rintro ⟨i, hi, rfl | rfl⟩
      · exact ⟨_, _, example_at.2 ⟨i, hi, .inl ⟨rfl, rfl⟩⟩, List.nil_infix, .refl⟩
      · exact ⟨_, _, example_at.2 ⟨i, hi, .inr ⟨rfl, rfl⟩⟩, List.nil_infix, .refl⟩
  have htask : ∀ t, Selected E.store (exampleSet a b n) [] t → E.store t = exampleTask := by
    intro t ht
    obtain ⟨i, hi, rfl | rfl⟩ := (hsel t).1 ht
    · exact (hst i hi).1
    · exact (hst i hi).2
  have hok := C73_all_ok h (fun t ht => by rw [htask t ht]; rfl) (no_cycle (fun _ => 0) (by
    rintro t d ⟨ht, _, hd⟩
    rw [htask t ht] at hd
    rcases hd with hd | hd <;> cases hd))
  intro tc σ hF
  obtain ⟨i, rec, h1, h2⟩ := hok tc σ hF
  refine ⟨i, rec, h1, ?_, ?_, h2.verdict⟩
  all_goals
    have hfin : (runSched (execCfg E.store s.dag tc) σ i).phase = .finished ∧
        rec = (runSched (execCfg E.store s.dag tc) σ i).erec := by
      unfold St.resultOut at h1
      cases hph : (runSched (execCfg E.store s.dag tc) σ i).phase <;> rw [hph] at h1 <;>
        first
          | exact ⟨rfl, by simpa using h1.symm⟩
          | simp at h1
  all_goals
    obtain ⟨hph, hrec⟩ := hfin
    rw [runSched_exec] at hph hrec
    obtain ⟨hperm, hdata, htot⟩ := C02_one_record _ (h.wf tc) _ hph
    rw [← hrec] at hperm hdata htot
  all_goals
    have hname : ∀ r ∈ rec.runs, ∀ p, At (exampleSet a b n) p r.t → r.name = fullName p := by
      intro r hr p hat
      obtain ⟨fuel, hf1, hf2⟩ := h.built
      have hnn : r.node ∈ newNodes Dag.empty s := by
        unfold newNodes Dag.empty
        refine List.mem_filter.2 ⟨hperm.mem_iff.1 (List.mem_map_of_mem hr), by simp⟩
      obtain ⟨e1, e2⟩ := hdata r hr
      rw [e1] at hat
      rw [e2]
      exact (C22_selected E _ _ univ visit order h.env fuel hf1 [] s hf2).2.2 _ hnn p hat
    have hP : (rec.runs.map fun r => (r.name, r.t)).Perm
        ((List.range n).map (fun i => ("//a/task_".toList ++ digits i, a i)) ++
            (List.range n).map (fun i => ("//b/task_".toList ++ digits i, b i))) := by
      have hka : ∀ i, fullName [['a'], exampleKey i] = "//a/task_".toList ++ digits i := exampleName_a
      have hkb : ∀ i, fullName [['b'], exampleKey i] = "//b/task_".toList ++ digits i := exampleName_b
      apply (List.perm_ext_iff_of_nodup _ _).2
      · rintro ⟨nm, t⟩
        simp only [List.mem_map, List.mem_append, List.mem_range, Prod.mk.injEq]
        constructor
        · rintro ⟨r, hr, rfl, rfl⟩
          obtain ⟨i, hi, ht | ht⟩ := (hsel r.t).1 ((h2.mem r.t).1 (List.mem_map_of_mem hr))
          · refine .inl ⟨i, hi, ?_, ht.symm⟩
            rw [hname r hr _ (example_at.2 ⟨i, hi, .inl ⟨rfl, ht⟩⟩), hka]
          · refine .inr ⟨i, hi, ?_, ht.symm⟩
            rw [hname r hr _ (example_at.2 ⟨i, hi, .inr ⟨rfl, ht⟩⟩), hkb]
        · rintro (⟨i, hi, rfl, rfl⟩ | ⟨i, hi, rfl, rfl⟩)
          · obtain ⟨r, hr, hrt⟩ := List.mem_map.1 ((h2.mem (a i)).2 ((hsel _).2 ⟨i, hi, .inl rfl⟩))
            refine ⟨r, hr, ?_, hrt⟩
            rw [hname r hr _ (example_at.2 ⟨i, hi, .inl ⟨rfl, hrt⟩⟩), hka]
          · obtain ⟨r, hr, hrt⟩ := List.mem_map.1 ((h2.mem (b i)).2 ((hsel _).2 ⟨i, hi, .inr rfl⟩))
            refine ⟨r, hr, ?_, hrt⟩
            rw [hname r hr _ (example_at.2 ⟨i, hi, .inr ⟨rfl, hrt⟩⟩), hkb]
      · have : (rec.runs.map fun r => (r.name, r.t)).map Prod.snd = rec.runs.map RunRecord.t := by
          rw [List.map_map]; rfl
        exact List.Nodup.of_map Prod.snd (this ▸ h2.nodup)
      · rw [List.nodup_append]
        refine ⟨List.Nodup.map (fun x y hxy => hp.injA x y (Prod.mk.inj hxy).2) List.nodup_range,
          List.Nodup.map (fun x y hxy => hp.injB x y (Prod.mk.inj hxy).2) List.nodup_range, ?_⟩
        intro x hx y hy hxy
        obtain ⟨i, _, rfl⟩ := List.mem_map.1 hx
        obtain ⟨j, _, rfl⟩ := List.mem_map.1 hy
        exact hp.apart i j (Prod.mk.inj hxy).2
  · exact hP
  · rw [h2.total]
    have := hP.length_eq
    simp only [List.length_map, List.length_append, List.length_range] at this
    omega

/-- **C75**, example.cpp called with `0`: the execution ends at once, and the default visitor then
prints a summary of a record without entries, which is undefined behaviour. -/
theorem C75_example_zero (a b : Nat → TaskId) (E : BEnv) {univ visit order s}
    (h : Run E (exampleSet a b 0) univ visit order [] s) (tc : Nat) (σ : Nat → Move)
    (hF : Fair (execCfg E.store s.dag tc) σ) :
    ∃ i, (runSched (execCfg E.store s.dag tc) σ i).phase = .finished ∧
      .afterExecution (runSched (execCfg E.store s.dag tc) σ i).erec ∈
        (runSched (execCfg E.store s.dag tc) σ i).trace ∧
      ∀ T hms, Item.stdout T hms (.summary (runSched (execCfg E.store s.dag tc) σ i).erec) = none := by
  have hnone : s.dag.nodes = [] := by
    rw [List.eq_nil_iff_forall_not_mem]
    intro m hm
    obtain ⟨p, u, hat, _⟩ := (h.nodes.2 _).1 (List.mem_map_of_mem hm)
    obtain ⟨i, hi, _⟩ := example_at.1 hat
    exact Nat.not_lt_zero i hi
  have hN : (execCfg E.store s.dag tc).dag.nodes = [] := hnone
  have hwf := h.wf tc
  have hH : Healthy (execCfg E.store s.dag tc) :=
    { wf := hwf
      acyclic := by
        rintro ⟨m, hm⟩
        obtain ⟨k, hk, _⟩ := Relation.TransGen.head'_iff.1 hm
        have := (hwf.closed _ hk).1
        rw [hN] at this
        cases this
      jobs := fun m hm => by rw [hN] at hm; cases hm
      answers := fun m hm => by rw [hN] at hm; cases hm
      codes := fun m hm => by rw [hN] at hm; cases hm }
  obtain ⟨i, hi⟩ := C11_completes _ hH σ hF
  refine ⟨i, hi, ?_, fun T hms => ?_⟩
  all_goals rw [runSched_exec] at hi ⊢
  · obtain ⟨pre, hpre⟩ := (C15_after_execution _ hwf _).2 hi
    rw [hpre]
    exact List.mem_append_right _ (List.mem_singleton_self _)
  · have hp := (C02_one_record _ hwf _ hi).1
    rw [hN] at hp
    have hr := List.map_eq_nil_iff.1 hp.eq_nil
    have hrs : ∀ clock, runtimeSum clock
        (exec (execCfg E.store s.dag tc) ((List.range i).map σ)).erec = none := fun clock => by
      rw [runtimeSum, hr]
    rw [Item.stdout, formatExecEnd, hrs]
    rfl


/-- **C75**, example.cpp called in any other way executes nothing: without exactly one argument it
returns 1, an argument that is no number ends it with an exception, a negative one asks for more tasks
than any memory holds. -/
theorem C75_example_args (a b : Nat → TaskId) (argv : List Str) :
    (argv.length ≠ 2 → exampleMain a b argv = .exits 1) ∧
    ∀ prog arg, argv = [prog, arg] →
      (stoi arg = none → exampleMain a b argv = .terminates) ∧
      ∀ n, stoi arg = some n → n < 0 → exampleMain a b argv = .exhausts := by
  constructor
  · intro h
    match argv, h with
    | [], _ => rfl
    | [_], _ => rfl
    | [_, _], h => exact absurd rfl h
    | _ :: _ :: _ :: _, _ => rfl
  · rintro prog arg rfl
    refine ⟨fun h => by simp only [exampleMain, h], fun n h hn => ?_⟩
    simp only [exampleMain, h, if_pos hn]

/-- the hypotheses of the theorems about example.cpp can be met for every `n` -/
theorem example_run (a b : Nat → TaskId) (hp : Placed a b) (n : Nat) :
    ∃ E univ visit order s, (∀ t, E.store t = exampleTask) ∧
      Run E (exampleSet a b n) univ visit order [] s := by
  let E : BEnv := { store := fun _ => exampleTask, alloc := id, rehash := fun _ => true }
  let univ := (List.range n).map a ++ (List.range n).map b
  have hmem : ∀ t, (exampleSet a b n).Has t → t ∈ univ := by
    rintro t ⟨p, hat⟩
    obtain ⟨i, hi, ⟨_, rfl⟩ | ⟨_, rfl⟩⟩ := example_at.1 hat
    · exact List.mem_append_left _ (List.mem_map_of_mem (List.mem_range.2 hi))
    · exact List.mem_append_right _ (List.mem_map_of_mem (List.mem_range.2 hi))
  have henv : BuildEnv E Dag.empty (exampleSet a b n) univ univ id :=
    { set := C75_example_set a b hp n
      dag := ⟨List.nodup_nil, fun e he => absurd he List.not_mem_nil⟩
      allocInj := fun _ _ h => h
      allocFresh := fun _ => List.not_mem_nil
      closed := fun t _ d hd => by cases hd
      univ := hmem
      visit := hmem
      order := fun l => .refl l }
  obtain ⟨s, hs⟩ := C22_defined E _ _ univ univ id henv (fun t _ d hd => by cases hd) (univ.length + 1)
    (Nat.lt_succ_self _) []
  exact ⟨E, univ, univ, id, s, fun _ => rfl, henv, _, Nat.lt_succ_self _, hs⟩

example : stoi "12".toList = some 12 ∧ stoi " \t+7 tasks".toList = some 7 ∧ stoi "-3".toList = some (-3) ∧
    stoi "abc".toList = none ∧ stoi [] = none ∧ stoi "2147483648".toList = none ∧
    stoi "2147483647".toList = some 2147483647 := by decide +kernel

/-- eleven tasks: `task_10` comes between `task_1` and `task_2` -/
example : (genTasks (· + 100) 11).map Prod.snd = [100, 101, 110, 102, 103, 104, 105, 106, 107, 108, 109] ∧
    (forEachTask (exampleSet id (· + 100) 1)) =
      [("//a/task_0".toList, 0), ("//b/task_0".toList, 100)] := by decide +kernel

example : Placed (fun i => 2 * i) (fun i => 2 * i + 1) :=
  ⟨fun i j (h : (2 * i : Nat) = 2 * j) => by omega,
    fun i j (h : (2 * i + 1 : Nat) = 2 * j + 1) => by omega,
    fun i j (h : (2 * i : Nat) = 2 * j + 1) => by omega⟩

end Joque
