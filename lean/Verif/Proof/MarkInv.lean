import Verif.Proof.RefInv

/-! # What a task's `failed` check saw: the records made before its own `before_run` -/

namespace Joque

/-- a task required by `n` has a FAIL or DEPF record in this trace -/
def BadBefore (g : Dag) (n : Node) (tr : List Event) : Prop :=
  ∃ r ∈ recsOf tr, HasEdge g .requires n r.node ∧ badStatus r.status = true

/-- a job that begins has had its `before_run`, when nothing it requires was bad -/
def CleanStart (g : Dag) (pre : List Event) (e : Event) : Prop :=
  ∀ n b, e = .jobBegin n b → ∃ i er, pre[i]? = some (.beforeRun er n) ∧
    ¬ BadBefore g n (pre.take i)

theorem cleanStart_of {g : Dag} {tr evs : List Event} (h : Always (CleanStart g) tr)
    (hev : ∀ n b, .jobBegin n b ∉ evs) : Always (CleanStart g) (tr ++ evs) := by
  refine always_append h fun p e q he n b heq => ?_
  subst heq
  exact absurd (by rw [he]; simp) (hev n b)

theorem cleanStart_prefix {g : Dag} {tr evs : List Event} (h : Always (CleanStart g) (tr ++ evs)) :
    Always (CleanStart g) tr := by
  intro p e q he
  exact h p e (q ++ evs) (by rw [he]; simp)

structure MarkInv (C : Cfg) (s : St) : Prop where
  start : ∀ h ∈ handles s, h.launched = true →
    (∃ er, s.trace[h.start]? = some (.beforeRun er h.node)) ∧
    ¬ BadBefore C.dag h.node (s.trace.take h.start)
  recs : ∀ r ∈ s.erec.runs, (∃ er, s.trace[r.start]? = some (.beforeRun er r.node)) ∧
    (r.status = .depf ↔ BadBefore C.dag r.node (s.trace.take r.start))
  began : Always (CleanStart C.dag) s.trace

theorem get_ext {l evs : List Event} {k : Nat} {e : Event} (h : l[k]? = some e) :
    (l ++ evs)[k]? = some e ∧ (l ++ evs).take k = l.take k := by
  have hk : k < l.length := by
    rcases Nat.lt_or_ge k l.length with h1 | h1
    · exact h1
    · rw [List.getElem?_eq_none h1] at h; cases h
  exact ⟨by rw [List.getElem?_append_left hk]; exact h,
    List.take_append_of_le_length (Nat.le_of_lt hk)⟩

theorem MarkInv.mono {C : Cfg} {s s' : St} (h : MarkInv C s) {evs : List Event}
    (ht : s'.trace = s.trace ++ evs)
    (hh : ∀ x ∈ handles s', x.launched = true → x ∈ handles s)
    (he : s'.erec.runs = s.erec.runs) (hb : Always (CleanStart C.dag) s'.trace) :
    MarkInv C s' := by
  refine ⟨fun x hx hl => ?_, fun r hrm => ?_, hb⟩
  · obtain ⟨⟨er, h1⟩, h2⟩ := h.start x (hh x hx hl) hl
    obtain ⟨a, b⟩ := get_ext (evs := evs) h1
    rw [ht, b]
    exact ⟨⟨er, a⟩, h2⟩
  · rw [he] at hrm
    obtain ⟨⟨er, h1⟩, h2⟩ := h.recs r hrm
    obtain ⟨a, b⟩ := get_ext (evs := evs) h1
    rw [ht, b]
    exact ⟨⟨er, a⟩, h2⟩

/-- the first element of `todo` ends -/
theorem MarkInv.complete {C : Cfg} {s s0 : St} (h : MarkInv C s) {sl : Slot} {rest : List Slot}
    (hs : s.todo = sl :: rest) {evs : List Event} (ht : s0.trace = s.trace ++ evs)
    (hk : s0.kept = s.kept) (he : s0.erec.runs = s.erec.runs)
    {r : RunRecord} (r1 : ∃ er, s0.trace[r.start]? = some (.beforeRun er r.node))
    (r2 : r.status = .depf ↔ BadBefore C.dag r.node (s0.trace.take r.start))
    (hb : Always (CleanStart C.dag) s0.trace) :
    MarkInv C (Joque.complete s0 sl.ref rest r) := by
  have htr : (Joque.complete s0 sl.ref rest r).trace =
      s0.trace ++ [.afterRun s0.erec r sl.ref] := rfl
  have hruns : (Joque.complete s0 sl.ref rest r).erec.runs = s.erec.runs ++ [r] := by
    show s0.erec.runs ++ [r] = _
    rw [he]
  refine ⟨fun x hx hl => ?_, fun r' hrm => ?_,
    by rw [htr]; exact cleanStart_of hb (by simp)⟩
  · have hx' : x ∈ handles s := by
      unfold handles at hx ⊢
      have h1 : (Joque.complete s0 sl.ref rest r).kept = s.kept := hk
      have h2 : (Joque.complete s0 sl.ref rest r).todo = rest := rfl
      rw [h1, h2] at hx
      rw [hs]
      rcases List.mem_append.1 hx with hx | hx
      · exact List.mem_append_left _ hx
      · exact List.mem_append_right _ (List.mem_cons_of_mem _ hx)
    obtain ⟨⟨er, h1⟩, h2⟩ := h.start x hx' hl
    obtain ⟨a, b⟩ := get_ext (evs := evs ++ [.afterRun s0.erec r sl.ref]) h1
    rw [htr, ht, List.append_assoc, b]
    exact ⟨⟨er, a⟩, h2⟩
  · rw [hruns] at hrm
    rcases List.mem_append.1 hrm with hrm | hrm
    · obtain ⟨⟨er, h1⟩, h2⟩ := h.recs r' hrm
      obtain ⟨a, b⟩ := get_ext (evs := evs ++ [.afterRun s0.erec r sl.ref]) h1
      rw [htr, ht, List.append_assoc, b]
      exact ⟨⟨er, a⟩, h2⟩
    · rw [List.mem_singleton.1 hrm]
      obtain ⟨er, h1⟩ := r1
      obtain ⟨a, b⟩ := get_ext (evs := [.afterRun s0.erec r sl.ref]) h1
      rw [htr, b]
      exact ⟨⟨er, a⟩, r2⟩

theorem MarkInv.collect {C : Cfg} {s s0 : St} (h : MarkInv C s) {sl : Slot} {rest : List Slot}
    (hs : s.todo = sl :: rest) {evs : List Event} (ht : s0.trace = s.trace ++ evs)
    (hk : s0.kept = s.kept) (he : s0.erec = s.erec)
    (htd : s0.todo = s.todo) {hd : Handle}
    (r1 : ∃ er, s0.trace[hd.start]? = some (.beforeRun er hd.node))
    (r2 : ¬ BadBefore C.dag hd.node (s0.trace.take hd.start))
    (hb : Always (CleanStart C.dag) s0.trace) :
    MarkInv C (Joque.collect C s0 sl.ref hd rest) := by
  unfold Joque.collect
  dsimp only
  split
  · refine h.mono (evs := evs) ht ?_ (by rw [he]) hb
    intro x hx _
    unfold handles at hx ⊢
    rwa [hk, htd] at hx
  · rename_i rc hrc
    have key : ∀ s1 : St, s1.trace = s0.trace ++ [.runLog hd.node (asyncLambda (C.outcome hd.node)).log] →
        s1.kept = s0.kept → s1.erec = s0.erec → ∀ r : RunRecord,
        r.node = hd.node → r.start = hd.start → r.status ≠ .depf →
        MarkInv C (Joque.complete s1 sl.ref rest r) := by
      intro s1 e1 e2 e4 r n1 n2 n4
      obtain ⟨er, h1⟩ := r1
      obtain ⟨a, b⟩ := get_ext
        (evs := [.runLog hd.node (asyncLambda (C.outcome hd.node)).log]) h1
      refine h.complete hs (evs := evs ++ [.runLog hd.node (asyncLambda (C.outcome hd.node)).log])
        (by rw [e1, ht, List.append_assoc]) (by rw [e2, hk])
        (by rw [e4, he]) ⟨er, by rw [e1, n1, n2]; exact a⟩ ?_
        (by rw [e1]; exact cleanStart_of hb (by simp))
      rw [e1, n1, n2, b]
      exact ⟨fun hc => absurd hc n4, fun hc => absurd hc r2⟩
    split
    · refine key _ ?_ ?_ ?_ _ ?_ ?_ ?_ <;> first | rfl | skip
      simp
    · refine key _ ?_ ?_ ?_ _ ?_ ?_ ?_ <;> first | rfl | skip
      simp

theorem anyDepFailed_before {C : Cfg} {s : St} (hI : Inv C s) (hT : TInv C s) (n : Node) :
    anyDepFailed s.flags (C.dag.outEdges n) = true ↔ BadBefore C.dag n s.trace := by
  rw [anyDepFailed_iff]
  unfold BadBefore
  rw [hT.recs]
  constructor
  · rintro ⟨m, h1, h2⟩
    obtain ⟨r, q1, q2, q3⟩ := (hI.failedIff m).1 h2
    exact ⟨r, q1, by rw [q2]; exact h1, q3⟩
  · rintro ⟨r, h1, h2, h3⟩
    exact ⟨r.node, h2, (hI.failedIff r.node).2 ⟨r, h1, rfl, h3⟩⟩

theorem markInv_ctl {C : Cfg} (hwf : C.dag.WF) {s : St} (hI : Inv C s) (hT : TInv C s)
    (h : MarkInv C s) (ok : Bool) : MarkInv C (ctlStep C s ok) := by
  have emit : ∀ (s' : St) (evs : List Event), s'.trace = s.trace ++ evs →
      (∀ n b, Event.jobBegin n b ∉ evs) →
      s'.todo = s.todo → s'.kept = s.kept → s'.erec = s.erec → MarkInv C s' := by
    intro s' ev a hne b c e
    refine h.mono (evs := ev) a ?_ (by rw [e]) (by rw [a]; exact cleanStart_of h.began hne)
    intro x hx _; unfold handles at hx ⊢; rwa [b, c] at hx
  have quiet : ∀ s' : St, s'.trace = s.trace → s'.todo = s.todo → s'.kept = s.kept →
      s'.erec = s.erec → MarkInv C s' :=
    fun s' a b c e => emit s' [] (by rw [a, List.append_nil]) (by simp) b c e
  unfold ctlStep
  cases hp : s.phase with
  | created =>
    dsimp only
    rw [hI.createdInit hp]
    obtain ⟨h1, h2, h3, h4, h5⟩ := prologue_todo (C := C)
    refine ⟨?_, ?_, ?_⟩
    · unfold handles; rw [h1, h2]; simp
    · rw [h5]; simp
    · intro p e q he n b heq
      subst heq
      rcases prologue_events hwf (.jobBegin n b) (by rw [he]; simp) with h | h <;> cases h
  | loopTop =>
    dsimp only
    split
    · exact quiet _ rfl rfl rfl rfl
    · exact emit _ [.onTick s.erec] rfl (by simp) rfl rfl rfl
  | clean d =>
    dsimp only
    unfold cleanStep
    split
    · rename_i ht
      refine h.mono (evs := []) (by rw [List.append_nil]) ?_ rfl h.began
      intro x hx _
      unfold handles at hx ⊢
      simp only [List.nil_append] at hx
      obtain ⟨sl, hsl, rfl⟩ := List.mem_map.1 hx
      refine List.mem_append_left _ ?_
      have h1 : (List.zipWith Slot.mk s.passed s.kept).map Slot.h = s.kept := by
        have hlen := hI.passedLen
        rw [List.map_zipWith]
        have : ∀ (a : List Node) (b : List Handle), b.length ≤ a.length →
            List.zipWith (fun _ y => y) a b = b := by
          intro a b
          induction b generalizing a with
          | nil => intro _; simp
          | cons y b ih =>
            intro hl
            cases a with
            | nil => simp at hl
            | cons x a => rw [List.zipWith_cons_cons, ih a (by simpa using hl)]
        exact this _ _ hlen
      rw [← h1]; exact List.mem_map_of_mem hsl
    · rename_i sl rest ht
      have hmem : sl.h ∈ handles s := Inv.slot_mem ht
      have hget : ∀ evs, (s.trace ++ Event.beforeRun s.erec sl.h.node :: evs)[s.trace.length]? =
          some (.beforeRun s.erec sl.h.node) ∧
          (s.trace ++ Event.beforeRun s.erec sl.h.node :: evs).take s.trace.length = s.trace := by
        intro evs
        exact ⟨by simp, by simp⟩
      split
      · rename_i hl
        unfold Joque.startRun
        dsimp only
        split
        · exact quiet _ rfl rfl rfl rfl
        · split
          · rename_i hf
            refine h.complete ht (evs := [.beforeRun s.erec sl.h.node]) ?_ ?_ ?_ ?_ ?_
              (by exact cleanStart_of h.began (by simp))
            · rfl
            · rfl
            · rfl
            · exact ⟨s.erec, (hget []).1⟩
            show Status.depf = .depf ↔ BadBefore C.dag sl.h.node
              ((s.trace ++ [Event.beforeRun s.erec sl.h.node]).take s.trace.length)
            rw [(hget []).2]
            exact ⟨fun _ => (anyDepFailed_before hI hT _).1 hf, fun _ => rfl⟩
          · rename_i hf
            have hnb : ¬ BadBefore C.dag sl.h.node s.trace := fun hc =>
              hf ((anyDepFailed_before hI hT _).2 hc)
            split
            · refine h.complete ht (evs := [.beforeRun s.erec sl.h.node]) ?_ ?_ ?_ ?_ ?_
                (by exact cleanStart_of h.began (by simp))
              · rfl
              · rfl
              · rfl
              · exact ⟨s.erec, (hget []).1⟩
              show Status.skip = .depf ↔ BadBefore C.dag sl.h.node
                ((s.trace ++ [Event.beforeRun s.erec sl.h.node]).take s.trace.length)
              rw [(hget []).2]
              exact ⟨fun hc => (by simp at hc), fun hc => absurd hc hnb⟩
            · split
              · have e3 : ∀ (a b c : Event), s.trace ++ [a] ++ [b] ++ [c] = s.trace ++ a :: [b, c] := by
                  intro a b c; simp
                refine h.collect ht (evs := .beforeRun s.erec sl.h.node ::
                  [.jobBegin sl.h.node true, .jobEnd sl.h.node]) ?_ ?_ ?_ ?_ ?_ ?_ ?_
                · exact e3 _ _ _
                · rfl
                · rfl
                · rfl
                · refine ⟨s.erec, ?_⟩
                  show (s.trace ++ [_] ++ [_] ++ [_])[s.trace.length]? = _
                  rw [e3]; exact (hget _).1
                · show ¬ BadBefore C.dag sl.h.node
                    ((s.trace ++ [_] ++ [_] ++ [_]).take s.trace.length)
                  rw [e3, (hget _).2]; exact hnb
                · show Always _ (s.trace ++ [_] ++ [_] ++ [_])
                  refine cleanStart_of (always_snoc (cleanStart_of h.began (by simp)) ?_) (by simp)
                  intro n b heq
                  simp only [Event.jobBegin.injEq] at heq
                  obtain ⟨rfl, _⟩ := heq
                  exact ⟨s.trace.length, s.erec, (hget []).1, by rw [(hget []).2]; exact hnb⟩
              · split
                · have e2 : s.trace ++ [Event.beforeRun s.erec sl.h.node] ++
                      [Event.launch sl.h.node] = s.trace ++ Event.beforeRun s.erec sl.h.node ::
                      [.launch sl.h.node] := by simp
                  refine ⟨fun x hx hxl => ?_, fun r hr => ?_,
                    cleanStart_of (cleanStart_of h.began (by simp)) (by simp)⟩
                  · have hx' : x = { sl.h with launched := true, start := s.trace.length } ∨
                        x ∈ handles s := by
                      unfold handles at hx ⊢
                      rw [ht]
                      rcases List.mem_append.1 hx with hx | hx
                      · exact .inr (List.mem_append_left _ hx)
                      · rw [List.map_cons] at hx
                        rcases List.mem_cons.1 hx with hx | hx
                        · exact .inl hx
                        · exact .inr (List.mem_append_right _ (List.mem_cons_of_mem _ hx))
                    show (∃ er, (s.trace ++ [_] ++ [_])[x.start]? = _) ∧
                      ¬ BadBefore _ _ ((s.trace ++ [_] ++ [_]).take x.start)
                    rw [e2]
                    rcases hx' with rfl | hx'
                    · dsimp only
                      rw [(hget _).2]
                      exact ⟨⟨s.erec, (hget _).1⟩, hnb⟩
                    · obtain ⟨⟨er, h1⟩, h2⟩ := h.start x hx' hxl
                      obtain ⟨a, b⟩ := get_ext (evs := Event.beforeRun s.erec sl.h.node ::
                        [.launch sl.h.node]) h1
                      rw [b]
                      exact ⟨⟨er, a⟩, h2⟩
                  · obtain ⟨⟨er, h1⟩, h2⟩ := h.recs r hr
                    obtain ⟨a, b⟩ := get_ext (evs := Event.beforeRun s.erec sl.h.node ::
                      [.launch sl.h.node]) h1
                    show (∃ er, (s.trace ++ [_] ++ [_])[r.start]? = _) ∧
                      (_ ↔ BadBefore _ _ ((s.trace ++ [_] ++ [_]).take r.start))
                    rw [e2, b]
                    exact ⟨⟨er, a⟩, h2⟩
                · refine h.mono (evs := [.beforeRun s.erec sl.h.node]) rfl ?_ rfl
                    (cleanStart_of h.began (by simp))
                  intro x hx _
                  unfold handles at hx ⊢
                  rw [ht]
                  rcases List.mem_append.1 hx with hx | hx
                  · exact List.mem_append_left _ hx
                  · exact List.mem_append_right _ (List.mem_cons_of_mem _ hx)
      · rename_i hl
        have hl' : sl.h.launched = true := by simpa using hl
        split
        · obtain ⟨h1, h2⟩ := h.start _ hmem hl'
          exact h.collect ht (evs := []) (by rw [List.append_nil]) rfl rfl rfl h1 h2 h.began
        · refine h.mono (evs := []) (by rw [List.append_nil]) ?_ rfl h.began
          intro x hx _
          unfold handles at hx ⊢
          rw [ht]
          simpa using hx
  | pick =>
    dsimp only
    unfold pickStep
    split
    · exact quiet _ rfl rfl rfl rfl
    · obtain ⟨r, hr, h4, _⟩ := findCandidate_spec (res := C.resources) (f := s.flags)
        (used := s.used) hwf hI.tp_nodes
      rw [hr]
      cases r with
      | none =>
        dsimp only
        split
        · exact quiet _ rfl rfl rfl rfl
        · exact quiet _ rfl rfl rfl rfl
      | some n =>
        dsimp only
        refine h.mono (evs := []) (by rw [List.append_nil]) ?_ rfl h.began
        intro x hx hxl
        unfold handles at hx ⊢
        simp only [List.map_append, List.map_cons, List.map_nil] at hx
        rw [← List.append_assoc] at hx
        rcases List.mem_append.1 hx with hx | hx
        · exact hx
        · rw [List.mem_singleton.1 hx] at hxl; cases hxl
  | susp d => exact emit _ [.resumed] rfl (by simp) rfl rfl rfl
  | drainTop =>
    dsimp only
    split
    · exact emit _ [.afterExecution s.erec] rfl (by simp) rfl rfl rfl
    · exact quiet _ rfl rfl rfl rfl
  | unwinding e =>
    dsimp only
    split
    · exact quiet _ rfl rfl rfl rfl
    · exact h
  | destroying =>
    dsimp only
    split
    · exact quiet _ rfl rfl rfl rfl
    · exact h
  | finished => exact quiet _ rfl rfl rfl rfl
  | threw e => exact quiet _ rfl rfl rfl rfl
  | destroyed => exact h
  | ub => exact h
  | abort => exact h
  | outOfFuel => exact h

theorem markInv_step {C : Cfg} (hwf : C.dag.WF) {s : St} (hI : Inv C s) (hT : TInv C s)
    (h : MarkInv C s) (m : Move) : MarkInv C (step C s m) := by
  have emit1 : ∀ (s' : St) (ev : Event), s'.trace = s.trace ++ [ev] →
      s'.todo = s.todo → s'.kept = s.kept → s'.erec = s.erec → CleanStart C.dag s.trace ev →
      MarkInv C s' := by
    intro s' ev a b c e hc
    refine h.mono (evs := [ev]) a ?_ (by rw [e]) (by rw [a]; exact always_snoc h.began hc)
    intro x hx _; unfold handles at hx ⊢; rwa [b, c] at hx
  cases m with
  | ctl => exact markInv_ctl hwf hI hT h true
  | ctlFail => exact markInv_ctl hwf hI hT h false
  | fault f =>
    show MarkInv C (faultStep C s f)
    rcases fault_cases C s f with h1 | ⟨pre, er, r, ref, post, _, _, h3⟩ |
        ⟨pre, e, post, h1, h2, _, hna, h3⟩ | ⟨_, _, h3⟩
    · rw [h1]; exact markInv_ctl hwf hI hT h true
    · rw [h3]
      have h' := markInv_ctl hwf hI hT h true
      exact ⟨h'.start, h'.recs, h'.began⟩
    · rw [h3]
      refine h.mono (evs := pre ++ [e]) rfl (fun _ hx _ => hx) rfl ?_
      have h' := (markInv_ctl hwf hI hT h true).began
      rw [h2] at h'
      refine cleanStart_prefix (evs := post) ?_
      simpa [List.append_assoc] using h'
    · rw [h3]; exact ⟨h.start, h.recs, h.began⟩
  | begin n =>
    unfold step
    dsimp only
    split
    · exact h
    · split
      · refine emit1 _ (.jobBegin n false) rfl rfl rfl rfl ?_
        intro m b heq
        simp only [Event.jobBegin.injEq] at heq
        rename_i hq
        obtain ⟨rfl, _⟩ := heq
        rcases hI.workerOnly n (by rw [hq]; simp) with ⟨_, h1⟩ | ⟨hd, h1, rfl, h3⟩
        · rw [hq] at h1; cases h1
        · obtain ⟨⟨er, h4⟩, h5⟩ := h.start hd h1 h3
          exact ⟨hd.start, er, h4, h5⟩
      · exact h
  | finish n =>
    unfold step
    dsimp only
    split
    · exact h
    · split
      · exact emit1 _ (.jobEnd n) rfl rfl rfl rfl (by intro _ _ hc; cases hc)
      · exact h
  | destroy =>
    show MarkInv C (destroyStep s)
    unfold destroyStep
    split
    all_goals first
      | exact h
      | exact h.mono (evs := []) (by rw [List.append_nil]) (fun _ hx _ => hx) rfl h.began

theorem markInv_exec {C : Cfg} (hwf : C.dag.WF) (ms : List Move) : MarkInv C (exec C ms) := by
  have : ∀ ms : List Move, (Inv C (exec C ms) ∧ TInv C (exec C ms)) ∧ MarkInv C (exec C ms) :=
    fun ms => foldl_inv (P := fun s => (Inv C s ∧ TInv C s) ∧ MarkInv C s)
      (fun _ m h => ⟨⟨inv_step hwf h.1.1 m, h.1.2.step hwf h.1.1 m⟩,
        markInv_step hwf h.1.1 h.1.2 h.2 m⟩) ms St.init
      ⟨⟨inv_init C, tinv_init C⟩, by
        refine ⟨?_, ?_, always_nil⟩ <;> simp [St.init, handles, ExecRecord.init]⟩
  exact (this ms).2

end Joque
