import Verif.Props.Local
import Verif.Props.Fast

/-! # What further declarations change (C117) -/

namespace Joque

/-- `st'` has the tasks and jobs of `st`, and at least its dependencies and invalidations -/
structure Declares (st st' : Store) : Prop where
  job : ∀ t, (st' t).job = (st t).job
  dep : ∀ t, ∀ d ∈ (st t).dependsOn, d ∈ (st' t).dependsOn
  inval : ∀ t, ∀ d ∈ (st t).invalidatedBy, d ∈ (st' t).invalidatedBy

theorem Declares.outOfDate {st st' : Store} (h : Declares st st') {sel sel' : TaskId → Prop}
    (hsel : ∀ t, sel t → sel' t) {t : TaskId} (ho : OutOfDate st sel t) : OutOfDate st' sel' t := by
  obtain ⟨u, hu, j, log, h1, h2⟩ := ho
  refine ⟨u, Relation.ReflTransGen.mono ?_ _ _ hu, j, log, (h.job u).trans h1, h2⟩
  exact fun a b hab => ⟨hsel b hab.1, hab.2.imp (h.dep a b) (h.inval a b)⟩

/-- what was selected is still selected -/
theorem Declares.selected {st st' : Store} (h : Declares st st') {ts : TaskSet} {f : Str} {t : TaskId}
    (ht : Selected st ts f t) : Selected st' ts f t := by
  obtain ⟨p, s, h1, h2, h3⟩ := ht
  exact ⟨p, s, h1, h2, Relation.ReflTransGen.mono (fun a b hab => h.dep a b hab) _ _ h3⟩

/-- how the record of a task may change: nothing; or a task that was up to date is no longer skipped; or a
dependency failed -/
def MayBecome (r r' : RunRecord) : Prop :=
  (r'.status = r.status ∧ r'.retcode = r.retcode ∧ r'.output = r.output) ∨
    r.status = .skip ∨ r'.status = .depf

/-- **C117**.  If dependencies and invalidations are declared in addition, or more is selected, a task that
was executed is executed with the same result unless a dependency failed; a task a dependency of which failed
is still not executed; only what was skipped can become anything. -/
theorem C117_become (st st' : Store) (hd : Declares st st') (ts ts' : TaskSet) (f f' : Str)
    (hsel : ∀ t, Selected st ts f t → Selected st' ts' f' t) (rs rs' : List RunRecord)
    (h : Finished st ts f rs) (h' : Finished st' ts' f' rs') :
    ∀ r ∈ rs, ∃ r' ∈ rs', r'.t = r.t ∧ MayBecome r r' := by
  obtain ⟨v, s⟩ := h.solved
  obtain ⟨v', s'⟩ := h'.solved
  have key : ∀ t, Selected st ts f t →
      v' t = v t ∨ (v t).status = .skip ∨ (v' t).status = .depf := by
    intro t ht
    refine s.induct (P := fun t => Selected st ts f t →
      v' t = v t ∨ (v t).status = .skip ∨ (v' t).status = .depf) ?_ t ht ht
    intro t ht ih _
    have ht' := hsel t ht
    by_cases hdf' : DepFailed st' v' t
    · exact .inr (.inr (congrArg Verdict.status (s'.eqs.depf t ht' hdf')))
    have hdf : ¬ DepFailed st v t := by
      rintro ⟨d, hdd, hs⟩
      refine hdf' ⟨d, hd.dep t d hdd, ?_⟩
      rcases ih d hdd (s.closed t ht d hdd) with h1 | h1 | h1
      · rw [h1]; exact hs
      · rw [h1] at hs; simp at hs
      · exact .inr h1
    by_cases ho : OutOfDate st (Selected st ts f) t
    · obtain ⟨j, a1, a2, a3⟩ := s.eqs.ran t ht hdf ho
      obtain ⟨j', b1, b2, b3⟩ := s'.eqs.ran t ht' hdf' (hd.outOfDate hsel ho)
      rw [hd.job, a1] at b1
      cases b1
      exact .inl (verdict_ran b2 a2 b3 a3)
    · exact .inr (.inl (congrArg Verdict.status (s.eqs.skip t ht hdf ho)))
  intro r hr
  have ht := (s.all _).2 (List.mem_map_of_mem hr)
  obtain ⟨r', hr', e⟩ := List.mem_map.1 ((s'.all _).1 (hsel _ ht))
  refine ⟨r', hr', e, ?_⟩
  have hk := key _ ht
  have e' := s'.saidBy r' hr'
  rw [e] at e'
  rw [s.saidBy r hr, e'] at hk
  rcases hk with hk | hk | hk
  · exact .inl ⟨congrArg Verdict.status hk, congrArg Verdict.retcode hk, congrArg Verdict.output hk⟩
  · exact .inr (.inl hk)
  · exact .inr (.inr hk)

/-- **C117**: the possible changes of a status -/
theorem C117_statuses (st st' : Store) (hd : Declares st st') (ts ts' : TaskSet) (f f' : Str)
    (hsel : ∀ t, Selected st ts f t → Selected st' ts' f' t) (rs rs' : List RunRecord)
    (h : Finished st ts f rs) (h' : Finished st' ts' f' rs') (r r' : RunRecord) (hr : r ∈ rs) (hr' : r' ∈ rs')
    (ht : r'.t = r.t) :
    (r.status = .depf → r'.status = .depf) ∧
    (r.status = .fail → r'.status = .fail ∨ r'.status = .depf) ∧
    (r.status = .ok → r'.status = .ok ∨ r'.status = .depf) ∧
    (r'.status = .skip → r.status = .skip) := by
  obtain ⟨r2, hr2, e, hm⟩ := C117_become st st' hd ts ts' f f' hsel rs rs' h h' r hr
  obtain ⟨v', s'⟩ := h'.solved
  have hv : r2.verdict = r'.verdict := by
    rw [← s'.saidBy r2 hr2, ← s'.saidBy r' hr', e, ht]
  have hv1 : r2.status = r'.status := congrArg Verdict.status hv
  rcases hm with ⟨h1, -, -⟩ | h1 | h1
  · rw [← hv1, h1]
    exact ⟨id, .inl, .inl, id⟩
  · rw [h1]
    exact ⟨nofun, nofun, nofun, fun _ => rfl⟩
  · rw [← hv1, h1]
    exact ⟨fun _ => rfl, fun _ => .inr rfl, fun _ => .inr rfl, nofun⟩

/-- **C117**: if every job that is run succeeds, then in addition nothing but skipped tasks changes. -/
theorem C117_successes (st st' : Store) (hd : Declares st st') (ts ts' : TaskSet) (f f' : Str)
    (hsel : ∀ t, Selected st ts f t → Selected st' ts' f' t) (rs rs' : List RunRecord)
    (h : Finished st ts f rs) (h' : Finished st' ts' f' rs')
    (hok : ∀ r' ∈ rs', r'.status ≠ .fail) :
    ∀ r ∈ rs, ∀ r' ∈ rs', r'.t = r.t → r.status = .ok →
      r'.status = .ok ∧ r'.retcode = r.retcode ∧ r'.output = r.output := by
  intro r hr r' hr' ht hs
  obtain ⟨v', s'⟩ := h'.solved
  obtain ⟨r2, hr2, e, hm⟩ := C117_become st st' hd ts ts' f f' hsel rs rs' h h' r hr
  have hv : r2.verdict = r'.verdict := by
    rw [← s'.saidBy r2 hr2, ← s'.saidBy r' hr', e, ht]
  have hv1 : r2.status = r'.status := congrArg Verdict.status hv
  have hv2 : r2.retcode = r'.retcode := congrArg Verdict.retcode hv
  have hv3 : r2.output = r'.output := congrArg Verdict.output hv
  have hno : ∀ t, Selected st' ts' f' t → (v' t).status ≠ .depf := by
    intro t ht
    refine s'.induct (P := fun t => Selected st' ts' f' t → (v' t).status ≠ .depf) ?_ t ht ht
    intro t ht ih _ hcon
    by_cases hdf : DepFailed st' v' t
    · obtain ⟨d, hdd, hs⟩ := hdf
      have hds := s'.closed t ht d hdd
      rcases hs with hs | hs
      · obtain ⟨q, hq, rfl⟩ := List.mem_map.1 ((s'.all d).1 hds)
        rw [s'.saidBy q hq] at hs
        exact hok q hq hs
      · exact ih d hdd hds hs
    · by_cases ho : OutOfDate st' (Selected st' ts' f') t
      · obtain ⟨j, -, -, b3⟩ := s'.eqs.ran t ht hdf ho
        rw [b3] at hcon
        split at hcon <;> cases hcon
      · rw [s'.eqs.skip t ht hdf ho] at hcon
        cases hcon
  rcases hm with ⟨h1, h2, h3⟩ | h1 | h1
  · exact ⟨by rw [← hv1, h1, hs], by rw [← hv2, h2], by rw [← hv3, h3]⟩
  · rw [hs] at h1; cases h1
  · have := hno r2.t ((s'.all _).2 (List.mem_map_of_mem hr2))
    rw [s'.saidBy r2 hr2] at this
    exact absurd h1 this

/-- **C117**: declaring the same dependencies and invalidations in another order or repeatedly, and declaring
`run_after` and resources differently, changes neither what is selected nor any result. -/
theorem C117_same (st st' : Store) (hd : Declares st st') (hd' : Declares st' st) (ts : TaskSet) (f : Str)
    (rs rs' : List RunRecord) (h : Finished st ts f rs) (h' : Finished st' ts f rs') :
    (∀ t, t ∈ rs.map RunRecord.t ↔ t ∈ rs'.map RunRecord.t) ∧
    ∀ r ∈ rs, ∀ r' ∈ rs', r.t = r'.t →
      r.status = r'.status ∧ r.retcode = r'.retcode ∧ r.output = r'.output := by
  obtain ⟨v, s⟩ := h.solved
  obtain ⟨v', s'⟩ := h'.solved
  refine ⟨fun t => ?_, fun r hr r' hr' ht => ?_⟩
  · rw [← s.all, ← s'.all]
    exact ⟨hd.selected, hd'.selected⟩
  · exact C90_local st st' ts ts f f rs rs' h h' r r' hr hr' ht fun u _ =>
      ⟨⟨(hd.job u).symm, fun d => ⟨hd.dep u d, hd'.dep u d⟩, fun d => ⟨hd.inval u d, hd'.inval u d⟩⟩,
        fun d _ => ⟨hd.selected, hd'.selected⟩⟩

/-! ## Orders -/

/-- **C117**: if the same tasks are selected, all orders in which one program may report them are possible in
the other as well iff each ordering declared there follows from those declared here. -/
theorem C117_orders (E E' : BEnv) (ts ts' : TaskSet) (univ univ' visit visit' : List TaskId)
    (order order' : List TaskId → List TaskId)
    (h : BuildEnv E Dag.empty ts univ visit order) (h' : BuildEnv E' Dag.empty ts' univ' visit' order')
    (fuel fuel' : Nat) (hfuel : univ.length < fuel) (hfuel' : univ'.length < fuel') (f f' : Str) (s s' : BSt)
    (hs : insertSet E fuel Dag.empty ts f visit order = .ok s)
    (hs' : insertSet E' fuel' Dag.empty ts' f' visit' order' = .ok s')
    (hG : Healthy (execCfg E.store s.dag 0)) (hG' : Healthy (execCfg E'.store s'.dag 0))
    (hsel : ∀ t, Selected E'.store ts' f' t ↔ Selected E.store ts f t) (tc : Nat) :
    (∀ L, RecordOrder E'.store ts' f' tc L → RecordOrder E.store ts f tc L) ↔
      ∀ a b, MustFollow E.store ts f b a → Relation.TransGen (MustFollow E'.store ts' f') b a := by
  constructor
  · intro hall a b hab
    have hne : b ≠ a := by
      rintro rfl
      have h1 := (builtFresh h hfuel hs)
      obtain ⟨x, hx, rfl⟩ := List.mem_map.1 ((h1.selected b).2 hab.1)
      exact hG.acyclic ⟨x, h1.path (.single hab) x hx x hx rfl rfl⟩
    by_contra hno
    obtain ⟨L, hL, hba⟩ := C104_free E' ts' univ' visit' order' h' fuel' hfuel' f' s' hs' hG' b a
      ((hsel b).2 hab.1) ((hsel a).2 hab.2.1) hne hno
    obtain ⟨h1, -, h3⟩ := C115_ordered E.store ts f tc L (hall L (C115_seqOrder _ _ _ tc _ hL))
    exact sublist_antisymm h1 (h3 a b (.single hab)) hba
  · intro hord L hL
    obtain ⟨h1, h2, h3⟩ := C115_ordered E'.store ts' f' tc L hL
    exact (C115_orders E ts univ visit order h fuel hfuel f s hs hG tc L).2
      ⟨h1, fun t => (h2 t).trans (hsel t), fun a b hab => h3 a b (hord a b hab)⟩

/-! ## Examples -/

namespace Ex

/-- `kstore` with a further dependency: of 12 (up to date) on 10 (fails) -/
def kmore : Store := fun t =>
  if t = 12 then { kstore [] fresh 12 with dependsOn := [10] } else kstore [] fresh t

theorem kmore_declares : Declares (kstore [] fresh) kmore where
  job t := by unfold kmore; split <;> simp_all
  dep t d h := by
    unfold kmore; split
    · rename_i e; subst e; simp [kstore, ktask] at h
    · exact h
  inval t d h := by
    unfold kmore; split
    · rename_i e; subst e; exact h
    · exact h

theorem kmore_closed : ∀ t ∈ [10, 11, 12, 13], ∀ d ∈ (kmore t).dependsOn, d ∈ [10, 11, 12, 13] := by
  intro t ht d hd
  unfold kmore at hd
  split at hd
  · simp at hd; simp [hd]
  · exact kclosed [] fresh t ht d hd

end Ex

/-- the hypotheses of `C117_become` are met; 12 was skipped, now a dependency of it fails -/
example : Declares (Ex.kstore [] Ex.fresh) Ex.kmore ∧
    (∀ t, Selected (Ex.kstore [] Ex.fresh) Ex.tree [] t → Selected Ex.kmore Ex.tree [] t) ∧
    Finished (Ex.kstore [] Ex.fresh) Ex.tree [] (exec (execCfg (Ex.kstore [] Ex.fresh)
      (Ex.kfst (Ex.kstore [] Ex.fresh) []).dag 0) (List.replicate 26 .ctl)).erec.runs ∧
    Finished Ex.kmore Ex.tree [] (exec (execCfg Ex.kmore (Ex.kfst Ex.kmore []).dag 0)
      (List.replicate 26 .ctl)).erec.runs ∧
    (exec (execCfg (Ex.kstore [] Ex.fresh) (Ex.kfst (Ex.kstore [] Ex.fresh) []).dag 0)
      (List.replicate 26 .ctl)).erec.runs.map (fun r => (r.t, r.status)) =
      [(12, .skip), (13, .ok), (10, .fail), (11, .depf)] ∧
    (exec (execCfg Ex.kmore (Ex.kfst Ex.kmore []).dag 0)
      (List.replicate 26 .ctl)).erec.runs.map (fun r => (r.t, r.status)) =
      [(10, .fail), (12, .depf), (13, .ok), (11, .depf)] :=
  ⟨Ex.kmore_declares, fun _ => Ex.kmore_declares.selected,
    Ex.kfinished _ _ (Ex.kclosed _ _) (by decide +kernel) 26 (by decide +kernel),
    Ex.kfinished _ _ Ex.kmore_closed (by decide +kernel) 26 (by decide +kernel),
    by decide +kernel, by decide +kernel⟩

namespace Ex

/-- the library and its users, with the dependencies declared twice, and as `run_after` -/
def libTwice : Store := fun t =>
  if t = 1 ∨ t = 2 then { plain with dependsOn := [0, 0], runAfter := [0] } else plain

def libTwiceEnv : BEnv := { libEnv 10 with store := libTwice }

theorem libTwice_declares : Declares libStore libTwice ∧ Declares libTwice libStore := by
  refine ⟨⟨fun t => ?_, fun t d h => ?_, fun t d h => ?_⟩, ⟨fun t => ?_, fun t d h => ?_, fun t d h => ?_⟩⟩ <;>
    unfold libTwice libStore at * <;> split <;> simp_all

theorem libTwiceBuild : BuildEnv libTwiceEnv Dag.empty libSet [0, 1, 2] [0, 1, 2] id :=
  let h := libBuildEnv 10 Dag.empty ⟨by simp [Dag.empty], by simp [Dag.empty]⟩ (by simp [Dag.empty])
  { set := h.set, dag := h.dag, univ := h.univ, visit := h.visit, order := h.order
    allocInj := h.allocInj, allocFresh := h.allocFresh
    closed := fun t _ d hd => by
      simp only [DependsOn, libTwiceEnv, libTwice] at hd
      split at hd
      · simp at hd; simp [hd]
      · simp [plain] at hd }

theorem lib_healthy {E : BEnv} (hE : BuildEnv E Dag.empty libSet [0, 1, 2] [0, 1, 2] id) {s : BSt}
    (hs : insertSet E 4 Dag.empty libSet [] [0, 1, 2] id = .ok s) (hj : ∀ t, (E.store t).job = plain.job)
    (hfin : (exec (execCfg E.store s.dag 0) (List.replicate 21 .ctl)).phase = .finished) :
    Healthy (execCfg E.store s.dag 0) := by
  have hb := builtFresh (filter := []) (fuel := 4) hE (by decide) hs
  refine ⟨hb.wf, (seq_records hb hfin).1, ?_, ?_, ?_⟩
  · intro n _
    show ((E.store _).job).isSome = true
    rw [hj]; rfl
  · intro n _
    refine ⟨⟨true, "always invalidated".toList⟩, ?_⟩
    show (match (E.store _).job with
      | some j => j.isInvalidated
      | none => .throws []) = _
    rw [hj]; rfl
  · intro n _ rr hrr
    change (match (E.store _).job with
      | some j => j.run
      | none => .throwsOther) = _ at hrr
    rw [hj] at hrr
    cases hrr
    simp

end Ex

/-- `C117_orders` applies to the library and its users: declaring the dependencies twice, and as `run_after`,
makes no order impossible, and none possible. -/
example (tc : Nat) (L : List TaskId) :
    RecordOrder Ex.libTwice Ex.libSet [] tc L ↔ RecordOrder Ex.libStore Ex.libSet [] tc L := by
  have h1 := Ex.libBuildEnv 10 Dag.empty ⟨by simp [Dag.empty], by simp [Dag.empty]⟩ (by simp [Dag.empty])
  have h2 := Ex.libTwiceBuild
  have hj : ∀ t, (Ex.libStore t).job = Ex.plain.job := fun t => by unfold Ex.libStore; split <;> rfl
  have g1 := Ex.lib_healthy h1 (s := match Ex.libAll (Ex.libEnv 10) with | .ok s => s | _ => ⟨Dag.empty, [], []⟩)
    rfl hj (by decide +kernel)
  have g2 := Ex.lib_healthy h2 (s := match Ex.libAll Ex.libTwiceEnv with | .ok s => s | _ => ⟨Dag.empty, [], []⟩)
    rfl (fun t => (Ex.libTwice_declares.1.job t).trans (hj t)) (by decide +kernel)
  have hsel : ∀ t, Selected Ex.libTwice Ex.libSet [] t ↔ Selected Ex.libStore Ex.libSet [] t :=
    fun t => ⟨Ex.libTwice_declares.2.selected, Ex.libTwice_declares.1.selected⟩
  have hd : ∀ t d, (d ∈ (Ex.libTwice t).dependsOn ∨ d ∈ (Ex.libTwice t).runAfter) ↔
      (d ∈ (Ex.libStore t).dependsOn ∨ d ∈ (Ex.libStore t).runAfter) := by
    intro t d
    unfold Ex.libTwice Ex.libStore
    split <;> simp [Ex.plain]
  constructor
  · exact (C117_orders _ _ _ _ _ _ _ _ _ _ h1 h2 4 4 (by decide) (by decide) [] [] _ _ rfl rfl g1 g2 hsel tc).2
      (fun a b h => .single ⟨(hsel b).2 h.1, (hsel a).2 h.2.1, (hd b a).2 h.2.2⟩) L
  · exact (C117_orders _ _ _ _ _ _ _ _ _ _ h2 h1 4 4 (by decide) (by decide) [] [] _ _ rfl rfl g2 g1
      (fun t => (hsel t).symm) tc).2
      (fun a b h => .single ⟨(hsel b).1 h.1, (hsel a).1 h.2.1, (hd b a).1 h.2.2⟩) L

end Joque
