import Verif.Props.InterleaveQueue
import Verif.Props.InterleaveTasks

/-!
# In which ways the jobs of tasks that have nothing to do with each other can interleave

Statement C119, said of tasks, whatever the placement of the nodes.
-/

namespace Joque

/-- at no moment have more than `k` jobs been entered and not left -/
theorem Queued.few {runs : Node → Prop} {k : Nat} {w : List JobEv} (h : Queued runs k w) {p q : List JobEv}
    (e : w = p ++ q) {l : List Node} (hl : l.Nodup) (hm : ∀ m ∈ l, .begins m ∈ p ∧ .ends m ∉ p) : l.length ≤ k := by
  cases l with
  | nil => simp
  | cons a l' =>
    -- the one at the highest address
    obtain ⟨n, hn, hmax⟩ : ∃ n ∈ a :: l', ∀ m ∈ a :: l', m ≤ n := by
      generalize hL : a :: l' = L at *
      have hne : L ≠ [] := by rw [← hL]; simp
      clear hL hm hl
      induction L with
      | nil => exact absurd rfl hne
      | cons x L ih =>
        cases L with
        | nil => exact ⟨x, by simp, by simp⟩
        | cons y L =>
          obtain ⟨n, hn, hmax⟩ := ih (by simp)
          rcases Nat.le_total x n with hx | hx
          · refine ⟨n, List.mem_cons_of_mem _ hn, fun m hm => ?_⟩
            rcases List.mem_cons.1 hm with rfl | hm
            · exact hx
            · exact hmax m hm
          · refine ⟨x, by simp, fun m hm => ?_⟩
            rcases List.mem_cons.1 hm with rfl | hm
            · exact Nat.le_refl _
            · exact Nat.le_trans (hmax m hm) hx
    generalize hL : a :: l' = L at *
    obtain ⟨p1, p2, rfl⟩ := List.append_of_mem (hm n hn).1
    have := h.turn p1 n (p2 ++ q) (by rw [e]; simp) (L.erase n) (hl.erase n) (fun m hme => by
      have hmL := List.mem_of_mem_erase hme
      refine ⟨h.which m (by rw [e]; exact List.mem_append_left _ (hm m hmL).1), ?_,
        fun hp => (hm m hmL).2 (List.mem_append_left _ hp)⟩
      refine Nat.lt_of_le_of_ne (hmax m hmL) ?_
      rintro rfl
      exact hl.not_mem_erase hme)
    rw [List.length_erase_of_mem hn] at this
    omega

/-- the nodes in the order in which their jobs are entered -/
def entered (w : List JobEv) : List Node :=
  w.filterMap fun e => match e with
    | .begins n => some n
    | .ends _ => none

theorem mem_entered {w : List JobEv} {n : Node} : n ∈ entered w ↔ .begins n ∈ w := by
  unfold entered
  rw [List.mem_filterMap]
  constructor
  · rintro ⟨x, hx, e⟩
    cases x <;> simp at e
    subst e
    exact hx
  · intro h
    exact ⟨_, h, rfl⟩

theorem entered_append (a b : List JobEv) : entered (a ++ b) = entered a ++ entered b := List.filterMap_append

theorem entered_nodup {w : List JobEv} (h : w.Nodup) : (entered w).Nodup := by
  induction w with
  | nil => exact List.nodup_nil
  | cons x w ih =>
    obtain ⟨h1, h2⟩ := List.nodup_cons.1 h
    have e : entered (x :: w) = entered [x] ++ entered w := entered_append [x] w
    rw [e]
    cases x with
    | ends n => exact ih h2
    | begins n => exact List.nodup_cons.2 ⟨fun h => h1 (mem_entered.1 h), ih h2⟩

variable {E : BEnv} {ts : TaskSet} {univ visit : List TaskId} {order : List TaskId → List TaskId} {filter : Str}
  {s : BSt}

theorem Run.apart (h : Run E ts univ visit order filter s) (tc : Nat)
    (hA : ApartTasks E.store (Selected E.store ts filter)) : Apart (execCfg E.store s.dag tc) := by
  obtain ⟨fuel, hf1, hf2⟩ := h.built
  have hB := builtFresh h.env hf1 hf2
  have horder : ∀ a b, ¬ AfterEdge s.dag a b := by
    intro a b hab
    obtain ⟨c, hc, -⟩ := Relation.TransGen.head'_iff.1 (hB.must (.single hab))
    exact hA.order _ _ hc
  exact ⟨horder, fun a b hab => horder a b (h.req a b hab), fun a ha b hb hne =>
    hA.resources _ _ (h.sel ha) (h.sel hb) fun e => hne (h.taskInj ha hb e)⟩

/-- **C119**, said of tasks that have nothing to do with each other.  Nodes may be placed anywhere.  Then with
`tc` threads the jobs of the selected tasks with verdict OK or FAIL (C70) can be entered and left, in an
execution that comes to its end, in exactly those ways in which at no moment more than `tc` have been entered
and not left. -/
theorem C119_queue_tasks (E : BEnv) (ts : TaskSet) (univ visit : List TaskId) (order : List TaskId → List TaskId)
    (filter : Str) (s : BSt) (h : Run E ts univ visit order filter s) (tc : Nat) (htc : 1 ≤ tc)
    (hA : ApartTasks E.store (Selected E.store ts filter))
    (hj : JobsOk E.store (Selected E.store ts filter))
    (ha : ∀ t, Selected E.store ts filter t → ∃ j a, (E.store t).job = some j ∧ j.isInvalidated = .answer a)
    (v : TaskId → Verdict) (hv : Verdicts E.store (Selected E.store ts filter) v) (w : List JobEv) :
    TaskWord E.store ts filter tc w ↔
      AtMost (fun t => Selected E.store ts filter t ∧ ((v t).status = .ok ∨ (v t).status = .fail)) tc w ∧
      AllLeft (fun t => Selected E.store ts filter t ∧ ((v t).status = .ok ∨ (v t).status = .fail)) w := by
  classical
  have hc : ¬ OrderCycle E.store (Selected E.store ts filter) := by
    rintro ⟨t, ht⟩
    obtain ⟨c, hc, -⟩ := Relation.TransGen.head'_iff.1 ht
    exact hA.order _ _ hc
  constructor
  · rintro ⟨E', univ', visit', order', fuel, s', ms, hst, hb, hf, hs, hfin, rfl⟩
    rw [← hst] at hA hj ha hv hc hfin ⊢
    clear h hst
    have h : Run E' ts univ' visit' order' filter s' := ⟨hb, fuel, hf, hs⟩
    have hG := h.healthy tc hc hj ha
    have hruns := h.runs_iff tc hc hj ha v hv
    have hinj : ∀ a b, a ∈ s'.dag.nodes → b ∈ s'.dag.nodes → s'.dag.task a = s'.dag.task b → a = b :=
      fun a b ha hb e => h.taskInj ha hb e
    obtain ⟨hQ, hall⟩ := (C119_queue_whole _ hG (h.apart tc hA) htc _).1 ⟨ms, hfin, rfl⟩
    have hS : ∀ n, (∃ ms, JobBegan (exec (execCfg E'.store s'.dag tc) ms).trace n) → n ∈ s'.dag.nodes :=
      fun n hn => Executes.node hG.wf hn
    generalize jobWord (exec (execCfg E'.store s'.dag tc) ms).trace = u at *
    have hwi : Within (· ∈ s'.dag.nodes) u := by
      intro x hx n hn
      rcases hn with rfl | rfl
      · exact hS n (hQ.which n hx)
      · obtain ⟨p, q, e⟩ := List.append_of_mem hx
        exact hS n (hQ.which n (by rw [e]; exact List.mem_append_left _ (hQ.ends p n q e)))
    have hsub : ∀ p q, u = p ++ q → Within (· ∈ s'.dag.nodes) p := fun p q e x hx => hwi x (by rw [e]; simp [hx])
    refine ⟨⟨?_, fun t ht => ?_, fun p t q e => ?_, fun p q e l hl hm => ?_⟩, fun t ht => ?_⟩
    · exact (List.nodup_map_iff_inj_on hQ.once).2 fun x hx y hy e => JobEv.map_inj hinj (hwi x hx) (hwi y hy) e
    · obtain ⟨x, hx, e⟩ := List.mem_map.1 ht
      cases x with
      | ends m => cases e
      | begins m =>
        simp only [JobEv.map, JobEv.begins.injEq] at e
        rw [← e]
        exact (hruns m (hwi _ hx m (.inl rfl))).2 (hQ.which m hx)
    · obtain ⟨P, R, rfl, rfl, hR⟩ := List.map_eq_append_iff.1 e
      obtain ⟨y, Q, rfl, hy, -⟩ := List.map_eq_cons_iff.1 hR
      cases y with
      | begins m => cases hy
      | ends n =>
        simp only [JobEv.map, JobEv.ends.injEq] at hy
        subst hy
        exact List.mem_map.2 ⟨_, hQ.ends P n Q rfl, rfl⟩
    · obtain ⟨P, R, hu, rfl, -⟩ := List.map_eq_append_iff.1 e
      -- the nodes of `l`
      have hl' : ∃ L : List Node, L.map s'.dag.task = l ∧ ∀ n ∈ L, n ∈ s'.dag.nodes := by
        have hin : ∀ t ∈ l, ∃ n ∈ s'.dag.nodes, s'.dag.task n = t := by
          intro t ht
          obtain ⟨x, hx, e⟩ := List.mem_map.1 (hm t ht).1
          cases x with
          | ends m => cases e
          | begins m =>
            simp only [JobEv.map, JobEv.begins.injEq] at e
            exact ⟨m, hsub P R hu _ hx m (.inl rfl), e⟩
        clear hm hl
        induction l with
        | nil => exact ⟨[], rfl, by simp⟩
        | cons t l ih =>
          obtain ⟨L, hL1, hL2⟩ := ih fun u hu => hin u (List.mem_cons_of_mem _ hu)
          obtain ⟨n, hn, hnt⟩ := hin t (by simp)
          refine ⟨n :: L, by rw [List.map_cons, hnt, hL1], fun m hm => ?_⟩
          rcases List.mem_cons.1 hm with rfl | hm
          · exact hn
          · exact hL2 m hm
      obtain ⟨L, rfl, hL⟩ := hl'
      rw [List.length_map]
      refine hQ.few hu (List.Nodup.of_map _ hl) fun n hn => ?_
      obtain ⟨h1, h2⟩ := hm _ (List.mem_map_of_mem hn)
      exact ⟨(within_begins hinj (hsub P R hu) (hL n hn)).1 h1,
        fun he => h2 ((within_ends hinj (hsub P R hu) (hL n hn)).2 he)⟩
    · obtain ⟨n, hn, rfl⟩ := h.node ht.1
      exact (within_ends hinj hwi hn).2 (hall n ((hruns n hn).1 ht))
  · rintro ⟨hw, hall⟩
    obtain ⟨fuel, hf1, hf2⟩ := h.built
    obtain ⟨u, rfl, hui⟩ := lift_word (S := (· ∈ s.dag.nodes)) (f := s.dag.task)
      (R := fun t => Selected E.store ts filter t ∧ ((v t).status = .ok ∨ (v t).status = .fail))
      (fun t ht => h.node ht.1) w fun t ht => by
      rcases ht with ht | ht
      · exact hw.which t ht
      · obtain ⟨p, q, e⟩ := List.append_of_mem ht
        exact hw.which t (by rw [e]; exact List.mem_append_left _ (hw.ends p t q e))
    have hinj : ∀ a b, a ∈ s.dag.nodes → b ∈ s.dag.nodes → s.dag.task a = s.dag.task b → a = b :=
      fun a b ha hb e => h.taskInj ha hb e
    have hund : u.Nodup := List.Nodup.of_map _ hw.once
    -- the nodes in the order in which they are to be placed
    have hent : ∀ n ∈ entered u, n ∈ s.dag.nodes := fun n hn => hui _ (mem_entered.1 hn) n (.inl rfl)
    let N : List Node := entered u ++ s.dag.nodes.filter fun n => n ∉ entered u
    have hNnd : N.Nodup := by
      refine List.nodup_append.2 ⟨entered_nodup hund, (h.wf tc).nodup.filter _, ?_⟩
      rintro a h1 b h2 rfl
      have := (List.mem_filter.1 h2).2
      simp at this
      exact this h1
    have hNmem : ∀ n, n ∈ N ↔ n ∈ s.dag.nodes := by
      intro n
      simp only [N, List.mem_append, List.mem_filter, decide_eq_true_eq]
      constructor
      · rintro (h | h)
        · exact hent n h
        · exact h.1
      · intro h
        by_cases hn : n ∈ entered u
        · exact .inl hn
        · exact .inr ⟨h, hn⟩
    have hsp := toProcessOf_spec s.dag
    have hSnd : (toProcessOf s.dag).Nodup := hsp.1.imp Nat.ne_of_lt
    have hNS : N.Perm (toProcessOf s.dag) :=
      (List.perm_ext_iff_of_nodup hNnd hSnd).2 fun n => (hNmem n).trans (hsp.2 n).symm
    obtain ⟨σ, hσ⟩ := exists_perm hNnd hSnd hNS.length_eq
    have hsorted : (N.map σ).Pairwise (· < ·) := hσ ▸ hsp.1
    obtain ⟨h', hs', -, -⟩ := placed h.env hf1 hf2 (h.healthy 0 hc hj ha) σ
    have hR : Run (E.rename σ) ts univ visit order filter (s.rename σ) := ⟨h', fuel, hf1, hs'⟩
    have hG' := hR.healthy tc hc hj ha
    have hruns' := hR.runs_iff tc hc hj ha v hv
    have hnode : ∀ n, (∃ ms, JobBegan (exec (execCfg E.store (s.dag.rename σ) tc) ms).trace n) →
        ∃ m ∈ s.dag.nodes, σ m = n := fun n hn => List.mem_map.1 (Executes.node hG'.wf hn)
    have hruns : ∀ n ∈ s.dag.nodes, (Selected E.store ts filter (s.dag.task n) ∧
        ((v (s.dag.task n)).status = .ok ∨ (v (s.dag.task n)).status = .fail) ↔
        ∃ ms, JobBegan (exec (execCfg E.store (s.dag.rename σ) tc) ms).trace (σ n)) := by
      intro n hn
      have := hruns' (σ n) (List.mem_map_of_mem hn)
      simp only [BSt.rename, Dag.rename, Equiv.symm_apply_apply] at this
      exact this
    have hmap : ∀ x : JobEv, ∀ n, (x.map σ = .begins (σ n) ↔ x = .begins n) ∧ (x.map σ = .ends (σ n) ↔ x = .ends n) := by
      intro x n
      cases x <;> simp [JobEv.map]
    have hb : ∀ (a : List JobEv) n, .begins (σ n) ∈ a.map (JobEv.map σ) ↔ .begins n ∈ a := by
      intro a n
      simp only [List.mem_map, hmap, exists_eq_right]
    have he : ∀ (a : List JobEv) n, .ends (σ n) ∈ a.map (JobEv.map σ) ↔ .ends n ∈ a := by
      intro a n
      simp only [List.mem_map, hmap, exists_eq_right]
    have hsub : ∀ p q, u = p ++ q → Within (· ∈ s.dag.nodes) p := fun p q e x hx => hui x (by rw [e]; simp [hx])
    have hall' : ∀ n ∈ s.dag.nodes, Selected E.store ts filter (s.dag.task n) ∧
        ((v (s.dag.task n)).status = .ok ∨ (v (s.dag.task n)).status = .fail) → .ends n ∈ u := fun n hn hr =>
      (within_ends hinj hui hn).1 (hall _ hr)
    have hends : ∀ p n q, u = p ++ .ends n :: q → .begins n ∈ p := by
      intro p n q e
      have hn : n ∈ s.dag.nodes := hui (.ends n) (by rw [e]; simp) n (.inr rfl)
      exact (within_begins hinj (hsub _ _ e) hn).1
        (hw.ends (p.map (JobEv.map s.dag.task)) _ (q.map (JobEv.map s.dag.task)) (by rw [e]; simp [JobEv.map]))
    have hQ : Queued (fun n => ∃ ms, JobBegan (exec (execCfg E.store (s.dag.rename σ) tc) ms).trace n) tc
        (u.map (JobEv.map σ)) ∧
        AllLeft (fun n => ∃ ms, JobBegan (exec (execCfg E.store (s.dag.rename σ) tc) ms).trace n)
          (u.map (JobEv.map σ)) := by
      refine ⟨⟨?_, fun n hn => ?_, fun p n q e => ?_, fun p n q e l hl hm => ?_⟩, fun n hn => ?_⟩
      · exact (List.nodup_map_iff_inj_on hund).2 fun x _ y _ e => by
          cases x <;> cases y <;> simp [JobEv.map] at e ⊢ <;> exact e
      · obtain ⟨x, hx, e⟩ := List.mem_map.1 hn
        cases x with
        | ends m => cases e
        | begins m =>
          simp only [JobEv.map, JobEv.begins.injEq] at e
          rw [← e]
          exact (hruns m (hui _ hx m (.inl rfl))).1 (hw.which _ (List.mem_map.2 ⟨_, hx, rfl⟩))
      · obtain ⟨P, R, hu, rfl, hR'⟩ := List.map_eq_append_iff.1 e
        obtain ⟨y, Q, rfl, hy, -⟩ := List.map_eq_cons_iff.1 hR'
        cases y with
        | begins m => cases hy
        | ends m =>
          simp only [JobEv.map, JobEv.ends.injEq] at hy
          subst hy
          exact (hb _ _).2 (hends P m Q hu)
      · obtain ⟨P, R, hu, rfl, hR'⟩ := List.map_eq_append_iff.1 e
        obtain ⟨y, Q, rfl, hy, -⟩ := List.map_eq_cons_iff.1 hR'
        cases y with
        | ends m => cases hy
        | begins m =>
          simp only [JobEv.map, JobEv.begins.injEq] at hy
          subst hy
          -- jobs at lower addresses have been entered before
          have hlow : ∀ x ∈ s.dag.nodes, σ x < σ m → .begins x ∈ P := by
            intro x hx hlt
            have hNe : N = entered P ++ m :: (entered Q ++ s.dag.nodes.filter fun n => n ∉ entered u) := by
              have h1 : entered u = entered P ++ m :: entered Q := by
                rw [hu, entered_append]; rfl
              show entered u ++ _ = _
              rw [show (s.dag.nodes.filter fun n => n ∉ entered u) = s.dag.nodes.filter fun n => n ∉ entered u from rfl]
              conv_lhs => rw [h1]
              simp [h1]
            rw [hNe, List.map_append, List.map_cons, List.pairwise_append, List.pairwise_cons] at hsorted
            have := (hNmem x).2 hx
            rw [hNe] at this
            rcases List.mem_append.1 this with h | h
            · exact mem_entered.1 h
            · exfalso
              rcases List.mem_cons.1 h with rfl | h
              · exact Nat.lt_irrefl _ hlt
              · exact Nat.lt_asymm hlt (hsorted.2.1.1 _ (List.mem_map_of_mem h))
          have hl' : ∃ L : List Node, L.map σ = l ∧ ∀ n ∈ L, n ∈ s.dag.nodes ∧ .begins n ∈ P ∧ .ends n ∉ P := by
            refine ⟨l.map σ.symm, by rw [List.map_map]; simp, fun n hn => ?_⟩
            obtain ⟨x, hx, rfl⟩ := List.mem_map.1 hn
            obtain ⟨e1, e2, e3⟩ := hm x hx
            obtain ⟨y, hy, rfl⟩ := hnode x e1
            rw [Equiv.symm_apply_apply]
            exact ⟨hy, hlow y hy e2, fun h => e3 ((he _ _).2 h)⟩
          obtain ⟨L, rfl, hL⟩ := hl'
          have hmn : m ∈ s.dag.nodes := hui (.begins m) (by rw [hu]; simp) m (.inl rfl)
          have hund' := hund
          rw [hu, List.nodup_append] at hund'
          have hmL : m ∉ L := fun h => hund'.2.2 _ (hL m h).2.1 _ (List.mem_cons_self ..) rfl
          have hLnd : (m :: L).Nodup := List.nodup_cons.2 ⟨hmL, List.Nodup.of_map _ hl⟩
          have hin : ∀ n ∈ m :: L, n ∈ s.dag.nodes := by
            intro n hn
            rcases List.mem_cons.1 hn with rfl | hn
            · exact hmn
            · exact (hL n hn).1
          have hPs : Within (· ∈ s.dag.nodes) (P ++ [.begins m]) := hsub _ Q (by rw [hu]; simp)
          have := hw.few ((P ++ [JobEv.begins m]).map (JobEv.map s.dag.task)) (Q.map (JobEv.map s.dag.task))
            (by rw [hu]; simp) ((m :: L).map s.dag.task)
            ((List.nodup_map_iff_inj_on hLnd).2 fun x hx y hy e => hinj x y (hin x hx) (hin y hy) e)
            (by
              intro t ht
              obtain ⟨n, hn, rfl⟩ := List.mem_map.1 ht
              rw [within_begins hinj hPs (hin n hn), within_ends hinj hPs (hin n hn)]
              rcases List.mem_cons.1 hn with rfl | hn
              · refine ⟨by simp, fun h => ?_⟩
                simp only [List.mem_append, List.mem_singleton, reduceCtorEq, or_false] at h
                obtain ⟨p, q, e⟩ := List.append_of_mem h
                exact hund'.2.2 (.begins n) (by
                  rw [e]
                  exact List.mem_append_left _ (hends p n (q ++ .begins n :: Q) (by rw [hu, e]; simp))) _ (List.mem_cons_self ..) rfl
              · obtain ⟨-, e1, e2⟩ := hL n hn
                exact ⟨by simp [e1], by simpa using e2⟩)
          simp only [List.length_map, List.length_cons] at this ⊢
          exact this
      · obtain ⟨m, hm, rfl⟩ := hnode n hn
        exact (he _ _).2 (hall' m hm ((hruns m hm).2 hn))
    obtain ⟨ms, hfin, hword⟩ := (C119_queue_whole (execCfg E.store (s.dag.rename σ) tc) hG' (hR.apart tc hA) htc
      (u.map (JobEv.map σ))).2 hQ
    refine ⟨E.rename σ, univ, visit, order, fuel, s.rename σ, ms, rfl, h', hf1, hs', hfin, ?_⟩
    show (jobWord (exec (execCfg E.store (s.dag.rename σ) tc) ms).trace).map _ = _
    rw [hword, List.map_map]
    apply List.map_congr_left
    intro x _
    cases x <;> simp [JobEv.map, BSt.rename, Dag.rename]

theorem Queued.prefix {runs : Node → Prop} {k : Nat} {u v : List JobEv} (h : Queued runs k (u ++ v)) :
    Queued runs k u := by
  refine ⟨(List.nodup_append.1 h.once).1, fun n hn => h.which n (by simp [hn]), fun p n q e => ?_, fun p n q e => ?_⟩
  · exact h.ends p n (q ++ v) (by rw [e]; simp)
  · exact h.turn p n (q ++ v) (by rw [e]; simp)

/-- **C119**, tasks that have nothing to do with each other, also when threads run between the single calls of
the control thread. -/
theorem C119_queue_fine (C : Cfg) (hG : Healthy C) (hA : Apart C) (hk : 1 ≤ C.threadCount) (w : List JobEv) :
    (∃ fms, jobWord (fexec C fms).seen = w) ↔
      Queued (fun n => ∃ ms, JobBegan (exec C ms).trace n) C.threadCount w := by
  constructor
  · rintro ⟨fms, rfl⟩
    obtain ⟨ms, -, -, -, hj, -⟩ := C95_same C hG.wf fms
    have h := C119_queue_only C hG hA hk ms
    rw [← jobWord_filter, ← hj, jobWord_filter, jobWord_append] at h
    exact h.prefix
  · intro h
    obtain ⟨ms, -, h⟩ := C119_queue_possible C hG hA hk w h
    obtain ⟨fms, hf⟩ := C95_every C hG.wf ms
    exact ⟨fms, by rw [hf]; exact h⟩

/-- also then 3 is not entered while neither 1 nor 2 has been left -/
example : ∀ fms, jobWord (fexec Ex.lone fms).seen ≠ [.begins 3] := by
  intro fms h
  have := ((C119_queue_fine Ex.lone Ex.lone_healthy Ex.lone_apart (by decide) _).1 ⟨fms, h⟩).turn
    [] 3 [] rfl [1, 2] (by decide) (by
      intro m hm
      refine ⟨(Ex.lone_runs m).2 (by simp at hm; tauto), ?_, by simp⟩
      simp at hm
      rcases hm with rfl | rfl <;> decide)
  exact absurd this (by decide)

namespace Ex

/-- four tasks that have nothing to do with each other, 10 fails -/
def lst : Store := fun t => { ktask (.callable (kret (if t = 10 then 3 else 0))) [] [] [] with resources := [t] }

theorem lrun : Run (kenv lst) tree [10, 11, 12, 13] [12, 11, 10, 13] List.reverse [] (kst lst) := by
  refine kisRun lst (fun t _ d hd => by simp [lst, ktask] at hd) ?_
  have h : (match kbuilt lst with | .ok _ => true | _ => false) = true := by decide +kernel
  revert h
  cases kbuilt lst with
  | ok s => intro _; exact ⟨s, rfl⟩
  | _ => intro h; cases h

theorem lsel (t : TaskId) : Selected lst tree [] t ↔ t ∈ [10, 11, 12, 13] := by
  constructor
  · intro h
    obtain ⟨n, hn, rfl⟩ := lrun.node h
    have : ∀ n ∈ (kst lst).dag.nodes, (kst lst).dag.task n ∈ [10, 11, 12, 13] := by decide +kernel
    exact this n hn
  · intro h
    have : ∀ t ∈ [10, 11, 12, 13], ∃ n ∈ (kst lst).dag.nodes, (kst lst).dag.task n = t := by decide +kernel
    obtain ⟨n, hn, rfl⟩ := this t h
    exact lrun.sel hn

theorem lapart : ApartTasks lst (Selected lst tree []) where
  order := fun a b h => by
    rcases h.2.2 with h | h <;> simp [lst, ktask] at h
  resources := fun a b _ _ hne r hr hr' => by
    simp only [lst, List.mem_singleton] at hr hr'
    exact hne (hr.symm.trans hr')

/-- the jobs are entered and left like this with two threads exactly if at no moment three have been entered and
not left -/
theorem lword (w : List JobEv) : TaskWord lst tree [] 2 w ↔
    AtMost (· ∈ [10, 11, 12, 13]) 2 w ∧ AllLeft (· ∈ [10, 11, 12, 13]) w := by
  have hm := C70_meaning _ _ _ _ _ _ _ lrun 0 (List.replicate 26 .ctl) (by decide +kernel)
  obtain ⟨v, hv⟩ := hm.2.2
  have hv1 := hm.2.1 v hv
  have hst : ∀ t ∈ [10, 11, 12, 13], ∃ r ∈ (exec (execCfg lst (kst lst).dag 0) (List.replicate 26 .ctl)).erec.runs,
      r.t = t ∧ (r.verdict.status = .ok ∨ r.verdict.status = .fail) := by decide +kernel
  have hR : (fun t => Selected lst tree [] t ∧ ((v t).status = .ok ∨ (v t).status = .fail)) =
      (· ∈ [10, 11, 12, 13]) := by
    funext t
    refine propext ⟨fun h => (lsel t).1 h.1, fun h => ⟨(lsel t).2 h, ?_⟩⟩
    obtain ⟨r, hr, rfl, h1⟩ := hst t h
    rw [hv1 r hr]
    exact h1
  rw [← hR]
  refine C119_queue_tasks _ _ _ _ _ _ _ lrun 2 (by decide) lapart ⟨fun t _ => by simp [kenv, lst, ktask], ?_⟩ ?_ v hv w
  · intro t _ j rr hj hr
    simp only [kenv, lst, ktask, Option.some.injEq] at hj
    subst hj
    simp only [Job.run, kret] at hr
    cases hr
    split <;> simp
  · intro t _
    simp [kenv, lst, ktask, Job.isInvalidated]

end Ex

/-- 13 is executing while the others are executed one after the other -/
example : TaskWord Ex.lst Ex.tree [] 2
    [.begins 13, .begins 10, .ends 10, .begins 12, .ends 12, .begins 11, .ends 11, .ends 13] := by
  refine (Ex.lword _).2 ⟨⟨by decide, ?_, ?_, ?_⟩, by simp [AllLeft]⟩
  · simp
  · intro p t q e
    generalize hw : [JobEv.begins 13, .begins 10, .ends 10, .begins 12, .ends 12, .begins 11, .ends 11, .ends 13] = w at e
    have h1 : p = w.take p.length := by rw [e]; simp
    have h2 : w[p.length]? = some (.ends t) := by rw [e]; simp
    rw [h1]
    clear e
    subst hw
    generalize p.length = i at *
    rcases i with _ | _ | _ | _ | _ | _ | _ | _ | i <;> simp at h2 <;> subst h2 <;> decide
  · intro p q e l hl hm
    generalize hw : [JobEv.begins 13, .begins 10, .ends 10, .begins 12, .ends 12, .begins 11, .ends 11, .ends 13] = w at e
    have h1 : p = w.take p.length := by rw [e]; simp
    have h3 : p.length ≤ 8 := by
      have := congrArg List.length e
      rw [← hw] at this
      simp at this
      omega
    have hsub : l ⊆ [13, 10] ∨ l ⊆ [13, 12] ∨ l ⊆ [13, 11] := by
      rw [h1] at hm
      clear e
      subst hw
      generalize p.length = i at *
      rcases i with _ | _ | _ | _ | _ | _ | _ | _ | _ | i <;> simp at hm
      · exact .inl fun t ht => absurd ht (hm t)
      · exact .inl fun t ht => by simp [hm t ht]
      · exact .inl fun t ht => by have := hm t ht; simp; tauto
      · exact .inl fun t ht => by have := hm t ht; simp; tauto
      · exact .inr (.inl fun t ht => by have := hm t ht; simp; tauto)
      · exact .inr (.inl fun t ht => by have := hm t ht; simp; tauto)
      · exact .inr (.inr fun t ht => by have := hm t ht; simp; tauto)
      · exact .inr (.inr fun t ht => by have := hm t ht; simp; tauto)
      · exact .inl fun t ht => by have := hm t ht; simp; tauto
      · omega
    rcases hsub with h | h | h <;> exact (List.subperm_of_subset hl h).length_le

/-- three of them are not executing at the same time -/
example : ¬ TaskWord Ex.lst Ex.tree [] 2
    [.begins 10, .begins 11, .begins 12, .ends 10, .ends 11, .ends 12, .begins 13, .ends 13] := by
  intro h
  have := ((Ex.lword _).1 h).1.few [.begins 10, .begins 11, .begins 12] _ rfl [10, 11, 12] (by decide) (by simp)
  exact absurd this (by decide)

end Joque
