import Verif.Proof.Rehash
import Verif.Props.Dag
import Verif.Props.JUnit
import Verif.Props.Process

/-! # Exact conditions for properties that are false of the code -/

namespace Joque

/-! ## C27 -/

/-- **C27**, exactly.  `inside` are the tasks of the set, `ext` the selected tasks outside it.  The
call has undefined behaviour if and only if one of the insertions into the map of names – which has
as many elements as there are tasks in the set, and gets one more for each task of `ext` – rehashes
it.  If none does, all selected tasks are scheduled, those outside the set under the name "". -/
theorem C27_exact (E : BEnv) (g : Dag) (ts : TaskSet) (univ visit : List TaskId)
    (order : List TaskId → List TaskId) (h : BuildEnv E g ts univ visit order) (fuel : Nat)
    (hfuel : univ.length < fuel) (filter : Str) (inside ext : List TaskId) (hin : inside.Nodup)
    (hin' : ∀ t, t ∈ inside ↔ ts.Has t) (hext : ext.Nodup)
    (hext' : ∀ t, t ∈ ext ↔ Selected E.store ts filter t ∧ ¬ ts.Has t) :
    (insertSet E fuel g ts filter visit order = .ub ↔
      ∃ k, inside.length ≤ k ∧ k < inside.length + ext.length ∧ E.rehash k = true) ∧
    (insertSet E fuel g ts filter visit order ≠ .ub →
      ∃ s, insertSet E fuel g ts filter visit order = .ok s ∧
        (∀ t, t ∈ (newNodes g s).map s.dag.task ↔ Selected E.store ts filter t) ∧
        ∀ n ∈ newNodes g s, ¬ ts.Has (s.dag.task n) → s.dag.name n = []) := by
  have hq : BuildEnv E.quiet g ts univ visit order :=
    ⟨h.set, h.dag, h.allocInj, h.allocFresh, h.closed, h.univ, h.visit, h.order⟩
  obtain ⟨s, hs, h1, h2⟩ := C27_partial E.quiet g ts univ visit order hq fuel hfuel filter (fun _ => rfl)
  have hnd : ((forEachTask ts).map Prod.snd).Nodup := tasks_nodup h.set
  obtain ⟨hT, hu, ho⟩ := insertSet_sim E fuel g ts filter visit order hnd s hs
  have hb := build_ok hq hfuel hs
  have hsel : ∀ t, t ∈ s.index.map Prod.fst ↔ Selected E.store ts filter t := fun t => by
    rw [← mget_isSome, hb.sel]
    exact sel_iff (F := fixOf E.quiet g ts univ) h.set rfl filter t
  have hlen : s.tmp.length = inside.length + ext.length := by
    have hp : (s.tmp.map Prod.fst).Perm (inside ++ ext) := by
      refine (List.perm_ext_iff_of_nodup hT.1 ?_).2 fun t => ?_
      · refine List.nodup_append.2 ⟨hin, hext, fun a ha b hb' e => ?_⟩
        exact ((hext' b).1 hb').2 (e ▸ (hin' a).1 ha)
      · rw [List.mem_append, hin', hext']
        constructor
        · intro ht
          by_cases hh : ts.Has t
          · exact .inl hh
          · rcases hb.inv.tmpNew t ht with h3 | h3
            · exact absurd (has_tmp.1 h3) hh
            · exact .inr ⟨(hsel t).1 h3.1, hh⟩
        · rintro (hh | ⟨hh, _⟩)
          · have h3 := mget_isSome.2 (has_tmp.2 hh)
            obtain ⟨n, hn⟩ := Option.isSome_iff_exists.1 h3
            exact mget_isSome.1 (by rw [hb.inv.tmpOld t n hn]; rfl)
          · exact hT.2 t ((hsel t).2 hh)
    have := hp.length_eq
    simpa using this
  have hlen0 : (forEachTask ts).length = inside.length := by
    have hp : ((forEachTask ts).map Prod.snd).Perm inside :=
      (List.perm_ext_iff_of_nodup hnd hin).2 fun t => by rw [mem_forEachTask_snd, hin']
    simpa using hp.length_eq
  rw [hlen, hlen0] at hu ho
  refine ⟨⟨fun hub => ?_, fun hk => hu hk⟩, fun hne => ?_⟩
  · by_cases hk : Hit E inside.length (inside.length + ext.length)
    · exact hk
    · rw [ho hk] at hub; cases hub
  · by_cases hk : Hit E inside.length (inside.length + ext.length)
    · exact absurd (hu hk) hne
    · exact ⟨s, ho hk, h1, h2⟩

theorem Ex.outer_ext (r : Nat → Bool) (t : TaskId) :
    t ∈ [50] ↔ Selected (Ex.oenv r).store Ex.outer [] t ∧ ¬ Ex.outer.Has t := by
  have hreach : ∀ a b, Relation.ReflTransGen (DependsOn (Ex.oenv r).store) a b → a = 10 → b = 10 ∨ b = 50 := by
    intro a b h
    induction h with
    | refl => exact .inl
    | tail _ hd ih =>
      intro ha
      rcases ih ha with rfl | rfl <;> simp [DependsOn, Ex.oenv, Ex.ostore, Ex.plain] at hd
      exact .inr hd
  have hat : At Ex.outer ["a".toList] 10 := (paths_at _ _ _).1 (by decide +kernel)
  rw [List.mem_singleton]
  constructor
  · rintro rfl
    refine ⟨⟨_, _, hat, by simp, .single ?_⟩, fun ⟨p, hp⟩ => ?_⟩
    · simp [DependsOn, Ex.oenv, Ex.ostore]
    · have := (Ex.outer_at hp).2; cases this
  · rintro ⟨⟨u, p, hp, _, hr⟩, hx⟩
    rcases hreach _ _ hr (Ex.outer_at hp).2 with rfl | rfl
    · exact absurd ⟨_, hat⟩ hx
    · rfl

/-- one task inside, one outside: only the insertion into a map of one element matters -/
example : insertSet (Ex.oenv fun k => k ≠ 1) 3 Dag.empty Ex.outer [] [10, 50] id ≠ .ub ∧
    insertSet (Ex.oenv fun k => k = 1) 3 Dag.empty Ex.outer [] [10, 50] id = .ub := by
  have hin' : ∀ t, t ∈ [10] ↔ Ex.outer.Has t := fun t => by
    rw [← mem_forEachTask_snd]
    have he : (forEachTask Ex.outer).map Prod.snd = [10] := by decide +kernel
    rw [he]
  constructor
  · intro h
    obtain ⟨k, h1, h2, h3⟩ := ((C27_exact _ _ _ _ _ _ (Ex.oBuildEnv _) 3 (by simp) [] [10] [50]
      (by simp) hin' (by simp) (Ex.outer_ext _)).1).1 h
    simp at h1 h2
    have : k = 1 := by omega
    subst this
    simp [Ex.oenv] at h3
  · exact ((C27_exact _ _ _ _ _ _ (Ex.oBuildEnv _) 3 (by simp) [] [10] [50]
      (by simp) hin' (by simp) (Ex.outer_ext _)).1).2 ⟨1, by simp, by simp, by simp [Ex.oenv]⟩

/-! ## C41, C42 -/

/-- **C41**, exactly: for what a finished execution returns, the total run time is undefined iff the
execution had no tasks. -/
theorem C41_exact (C : Cfg) (hwf : C.dag.WF) (ms : List Move) (clock : Nat → Int)
    (hfin : (exec C ms).phase = .finished) :
    runtimeSum clock (exec C ms).erec = none ↔ C.dag.nodes = [] := by
  have hp := (C02_one_record C hwf ms hfin).1.length_eq
  rw [List.length_map] at hp
  constructor
  · intro h
    by_contra hne
    have : (exec C ms).erec.runs ≠ [] := by
      intro h0
      rw [h0] at hp
      exact hne (List.length_eq_zero_iff.1 hp.symm)
    obtain ⟨n, hn, _⟩ := C41_least clock _ this
    rw [hn] at h; cases h
  · intro h
    rw [h] at hp
    rw [runtimeSum, List.length_eq_zero_iff.1 hp]

/-- **C42**, exactly: of all executions that finish, those without tasks, and no others, have no
report (undefined behaviour). -/
theorem C42_exact (C : Cfg) (hwf : C.dag.WF) (ms : List Move) (clock : Nat → Int)
    (secs : RunRecord → Str) (stamp tsName : Str) (hfin : (exec C ms).phase = .finished) :
    junitXml clock secs stamp tsName (exec C ms).erec = none ↔ C.dag.nodes = [] := by
  rw [← C41_exact C hwf ms clock hfin, junitXml]
  cases runtimeSum clock (exec C ms).erec <;> simp

example : (exec (Ex.cfg 2) Ex.done2).phase = .finished ∧ (Ex.cfg 2).dag.nodes ≠ [] ∧
    (exec emptyCfg [.ctl, .ctl, .ctl]).phase = .finished ∧ emptyCfg.dag.nodes = [] := by
  decide +kernel

/-! ## C35 -/

/-- **C35**, exactly, with libstdc++'s clock and inputs that are there: a process with a missing
output is considered up to date iff it has no inputs, or at least one output is there and all those
that are there are newer than all inputs. -/
theorem C35_exact (tf : TimeFmt) (fs : FS) (p : Process) (hr : RetcodeOk fs p) (he : EpochAfter fs)
    (hin : ∀ i ∈ p.input, (fs i).isSome) (o : Str) (ho : o ∈ p.output) (hmiss : fs o = none) :
    (p.isInvalidated tf fs).invalidated = false ↔
      p.input = [] ∨ ((∃ q ∈ p.output, (fs q).isSome) ∧
        ∀ q ∈ p.output, ∀ i ∈ p.input, ¬ NotNewer fs q i) := by
  rw [← Bool.not_eq_true]
  by_cases hi : p.input = []
  · rw [C35_inverted tf fs p hr hi (List.ne_nil_of_mem ho)]
    refine ⟨fun _ => .inl hi, fun _ h => ?_⟩
    have := h o ho
    rw [hmiss] at this; cases this
  · by_cases hq : ∃ q ∈ p.output, (fs q).isSome
    · obtain ⟨q, hq, hs⟩ := hq
      rw [C35_unnoticed tf fs p hr he hi hin q hq hs]
      constructor
      · intro h
        exact .inr ⟨⟨q, hq, hs⟩, fun q' hq' i hi' hn => h ⟨q', hq', i, hi', hn⟩⟩
      · rintro (h | ⟨_, h⟩)
        · exact absurd h hi
        · rintro ⟨q', hq', i, hi', hn⟩; exact h q' hq' i hi' hn
    · have hall : ∀ q ∈ p.output, fs q = none := by
        intro q hq'
        cases h : fs q with
        | none => rfl
        | some f => exact absurd ⟨q, hq', by rw [h]; rfl⟩ hq
      refine ⟨fun h => absurd (C35_partial tf fs p hr hi o ho hmiss (.inl hall)) h, ?_⟩
      rintro (h | ⟨h, _⟩)
      · exact absurd h hi
      · exact absurd h hq

/-- the hypotheses, with two outputs of which one is missing -/
example : RetcodeOk (Ex.fsAt (-5)) ⟨[], [['a']], [['b'], ['x']], none⟩ ∧ EpochAfter (Ex.fsAt (-5)) ∧ Ex.fsAt (-5) ['x'] = none := by
  refine ⟨?_, ?_, rfl⟩
  · intro f h; cases h
  · intro q f h
    unfold Ex.fsAt at h
    split at h
    · cases h; decide
    · split at h
      · cases h; decide
      · cases h

/-! ## C56 -/

/-- **C56**, exactly: a run that reports a failure, with a retcode file which the child leaves alone.
The retcode file afterwards tells that all is well, so the failure is forgotten, iff the child did
not run to its end (it could not be started, drained or waited for) and the retcode file told that
all is well before, or it did and the device is full. -/
theorem C56_exact (os : POS) (fs : FS) (p : Process) (f : Str) (hf : p.retcodeFile = some f)
    (hq : os.effect fs f = fs f) (hrm : os.removeFails = none) (r : RunResult)
    (hr : (p.run os fs).1 = .ret r) (h0 : r.retcode ≠ some 0) :
    RetcodeOk (p.run os fs).2 p ↔ (¬ os.Completed ∧ RetcodeOk fs p) ∨ (os.Completed ∧ os.Torn) := by
  by_cases hc : os.Completed
  · refine ⟨fun h => .inr ⟨hc, ?_⟩, fun h => ?_⟩
    · have he : os.exit ≠ 0 := by
        intro he
        apply h0
        rw [prun_done os fs p hc] at hr
        cases hw : writeRetcode os (os.effect fs) p.retcodeFile with
        | error w => rw [hw] at hr; cases hr
        | ok fs2 => rw [hw] at hr; cases hr; rw [he]
      obtain ⟨file, h1, h2⟩ := h f hf
      rw [retcode_left os fs p f hf hc hrm] at h1
      cases hw : os.canWrite with
      | true =>
        rw [hw, if_pos rfl] at h1
        cases h1
        exact ⟨hw, ((C82_torn _ _).1 h2).resolve_left he⟩
      | false => rw [hw] at h1; cases h1
    · rcases h with h | h
      · exact absurd hc h.1
      · exact C36_full os fs p hc hrm h.2
  · have hsame : (p.run os fs).2 f = fs f := by
      rcases os.cases with h | ⟨h, h2⟩ | ⟨h, h2, h3⟩ | h
      · rw [prun_start os fs p h]
      · rw [prun_drain os fs p h h2]; exact hq
      · rw [prun_wait os fs p h h2 h3]; exact hq
      · exact absurd h hc
    have : RetcodeOk (p.run os fs).2 p ↔ RetcodeOk fs p := by
      unfold RetcodeOk
      simp only [hf, Option.some.injEq, forall_eq', hsame]
    rw [this]
    exact ⟨fun h => .inl ⟨hc, h⟩, fun h => (h.resolve_right fun h => hc h.1).2⟩

/-- the hypotheses, for a run that could not be started, for one whose child failed, and for one whose
child failed with the device full -/
example : ∃ os1 os2 os3 : POS, ¬ os1.Completed ∧ (os2.Completed ∧ ¬ os2.Torn) ∧
    (os3.Completed ∧ os3.Torn) ∧ ∀ os ∈ [os1, os2, os3],
    os.effect Ex.fsR ['r'] = Ex.fsR ['r'] ∧ os.removeFails = none ∧
    ∃ r, (Ex.procR.run os Ex.fsR).1 = .ret r ∧ r.retcode ≠ some 0 := by
  refine ⟨Ex.osNone, { Ex.osNone with start := ⟨0, false, []⟩, exit := -7 },
    { Ex.osNone with start := ⟨0, false, []⟩, exit := -7, room := 1 }, ?_,
    ⟨⟨rfl, rfl, rfl⟩, by unfold POS.Torn; decide⟩, ⟨⟨rfl, rfl, rfl⟩, by unfold POS.Torn; decide⟩, ?_⟩
  · rintro ⟨h, _⟩; exact absurd h (by decide)
  · intro os ho
    rcases List.mem_cons.1 ho with rfl | ho
    · exact ⟨rfl, rfl, _, rfl, by decide +kernel⟩
    rcases List.mem_cons.1 ho with rfl | ho
    · exact ⟨rfl, rfl, _, rfl, by decide +kernel⟩
    · cases List.mem_singleton.1 ho
      exact ⟨rfl, rfl, _, rfl, by decide +kernel⟩

end Joque
