import Verif.Spec.Clean
import Verif.Props.Crash
import Verif.Props.Edit

/-!
# C110: a build leaves what a clean build would leave
-/

namespace Joque

theorem Current.congr {R : Recipe} (hR : R.Declared) {fs fs' : FS} {p : Process}
    (h : Current R fs p) (hi : ∀ q ∈ p.input, fs' q = fs q) (ho : ∀ q ∈ p.output, fs' q = fs q) :
    Current R fs' p := by
  intro o hoo
  have := h o hoo
  unfold text at *
  rw [ho o hoo, this, hR p _ _ fun q hq => ?_]
  show Option.map _ (fs q) = Option.map _ (fs' q)
  rw [hi q hq]

theorem Current.present {R : Recipe} {fs : FS} {p : Process} (h : Current R fs p) {o : Str}
    (ho : o ∈ p.output) : (fs o).isSome := by
  have := h o ho
  unfold text at this
  cases hf : fs o with
  | none => rw [hf] at this; cases this
  | some f => rfl

/-- a process with files as before is as before -/
theorem Trusted.same {P : Process → Prop} {R : Recipe} {tf : TimeFmt} (hR : R.Declared) {fs fs' : FS}
    (h : Trusted P R tf fs) {p : Process} (hp : P p)
    (hs : ∀ q, q ∈ p.input ∨ q ∈ p.writes → fs' q = fs q)
    (hv : (p.isInvalidated tf fs').invalidated = false) (hi : ∀ i ∈ p.input, (fs' i).isSome) :
    Current R fs' p := by
  have hv' : (p.isInvalidated tf fs).invalidated = false := by
    rw [← isInvalidated_congr tf (fs := fs') (fs' := fs) fun q hq => hs q hq]; exact hv
  refine (h p hp hv' fun i hii => ?_).congr hR (fun q hq => hs q (.inl hq))
    (fun q hq => hs q (.inr (List.mem_append_left _ hq)))
  rw [← hs i (.inl hii)]; exact hi i hii

section
variable {P : Process → Prop} {R : Recipe} {tf : TimeFmt} {C : Cfg} {ms : List Move} {tr : List Event}
  {proc : Node → Process} {clock : Nat → Int} {fs : Nat → FS} {after : FS} {now : Int}

/-- an input that no process of the dag writes is written by none of the project -/
theorem PartOf.source (hp : PartOf P C.dag proc) {n : Node} (hn : n ∈ C.dag.nodes) {q : Str}
    (hq : q ∈ (proc n).input) (hs : ∀ m ∈ C.dag.nodes, q ∉ (proc m).writes) : Handwritten P q := by
  intro p hpp hqp
  obtain ⟨m, hm, rfl⟩ := hp.makers n hn q hq p hpp hqp
  exact hs m hm hqp

/-- files the execution changed are new -/
theorem Building.new (B : Building P R tf C ms tr proc clock fs after now) {q : Str} {f : PFile}
    (h : after q ≠ fs 0 q) (hf : after q = some f) : clock 0 ≤ f.time := by
  by_cases hc : after q = fs tr.length q
  · have key : ∀ j ≤ tr.length, fs j q ≠ fs 0 q → fs j q = some f → clock 0 ≤ f.time := by
      intro j
      induction j with
      | zero => intro _ h; exact absurd rfl h
      | succ j ih =>
        intro hj h1 h2
        by_cases he : fs (j + 1) q = fs j q
        · exact ih (by omega) (he ▸ h1) (he ▸ h2)
        · rw [(B.run.change j (by omega) q he).2 f h2]
          exact B.run.mono (Nat.zero_le _)
    exact key _ (Nat.le_refl _) (hc ▸ h) (hc ▸ hf)
  · exact Int.le_trans (B.run.mono (Nat.zero_le _)) (B.late q f hc hf)

/-- the files of a process that is not begun stay -/
theorem Building.alone (hP : Project P) (B : Building P R tf C ms tr proc clock fs after now) {p : Process}
    (hp : P p) (h : ∀ n ∈ C.dag.nodes, proc n = p → ¬ JobBegan tr n) {q : Str} (hq : q ∈ p.writes) :
    after q = fs 0 q := by
  by_cases hx : ∃ n ∈ C.dag.nodes, proc n = p
  · obtain ⟨n, hn, rfl⟩ := hx
    exact crash_fresh B.wf B.history B.plan B.run B.left hn (h n hn rfl) hq
  · refine crash_source B.wf B.history B.run B.left fun m hm hqm => ?_
    by_cases he : proc m = p
    · exact hx ⟨m, hm, he⟩
    · exact hP.disjoint _ _ (B.part.procs m hm) hp he q hqm hq

/-- from the begin of a job to the end of the execution its inputs stay -/
theorem Building.inputs (B : Building P R tf C ms tr proc clock fs after now) {n : Node}
    (hn : n ∈ C.dag.nodes) {j : Nat} {b : Bool} (hj : tr[j]? = some (.jobBegin n b)) {q : Str}
    (hq : q ∈ (proc n).input) {k : Nat} (hjk : j < k) (hk : k ≤ tr.length) : after q = fs k q := by
  rcases B.plan.inputs n hn q hq with hs | ⟨m, hm, hqm, hedge, _⟩
  · rw [crash_source B.wf B.history B.run B.left hs]
    exact (B.run.stable (Nat.zero_le _) hk fun _ _ _ n hn => hs n (crash_node_take B.wf B.history hn)).symm
  · have hw : q ∈ (proc m).writes := List.mem_append_left _ hqm
    obtain ⟨rest, hrest⟩ := B.history
    have hjl : j < tr.length := (List.getElem?_eq_some_iff.1 hj).1
    have hsplit : tr = tr.take j ++ Event.jobBegin n b :: tr.drop (j + 1) := by
      conv_lhs => rw [← List.take_append_drop j tr]
      rw [List.drop_eq_getElem_cons hjl]
      rw [List.getElem?_eq_getElem hjl] at hj
      injection hj with hj
      rw [hj]
    have htr : (exec C ms).trace = tr.take j ++ Event.jobBegin n b :: (tr.drop (j + 1) ++ rest) := by
      rw [← hrest]
      conv_lhs => rw [hsplit]
      simp
    obtain ⟨_, h2, h3⟩ := C01_ordering C B.wf ms _ _ n m b htr hedge
    have hnr : ∀ k, j < k → ¬ Running (tr.take k) m := by
      intro k hk hrun
      obtain ⟨⟨x, hx⟩, hne⟩ := hrun
      have hne' : ¬ JobEnded (tr.take j) m := by
        intro he
        refine hne ?_
        have : (tr.take k).take j = tr.take j := by rw [List.take_take, Nat.min_eq_left (by omega)]
        exact List.mem_of_mem_take (i := j) (by rw [this]; exact he)
      have hnb : ¬ JobBegan (tr.take j) m := fun hb => h2 ⟨hb, hne'⟩
      have hx' : Event.jobBegin m x ∈ tr := List.mem_of_mem_take hx
      rw [hsplit] at hx'
      rcases List.mem_append.1 hx' with h | h
      · exact hnb ⟨x, h⟩
      · rcases List.mem_cons.1 h with h | h
        · cases h
          refine ((C09_exact C B.wf ms).2 ⟨n, .single hedge⟩).2.2.1 n ⟨b, ?_⟩
          rw [htr]; simp
        · exact h3 ⟨x, List.mem_append_left _ h⟩
    have hend : ¬ Running tr m := by
      have := hnr (tr.length + 1 + j) (by omega)
      rwa [List.take_of_length_le (by omega)] at this
    rw [crash_same B.wf B.history B.plan B.left hm hend hw]
    exact crash_idle B.wf B.history B.plan B.run hm hw hk (Nat.le_refl _) fun k' h1 _ => hnr k' (by omega)

/-- what a process that succeeded leaves -/
theorem Building.succeeded (hR : R.Declared) (B : Building P R tf C ms tr proc clock fs after now)
    {n : Node} (hs : Succeeded tr C.outcome n) : Current R after (proc n) := by
  obtain ⟨hend, hok⟩ := hs
  obtain ⟨b, hb⟩ := ended_began B.wf B.history hend
  have hn : n ∈ C.dag.nodes := (crash_node B.wf B.history ⟨b, hb⟩).1
  obtain ⟨j, hj⟩ := List.mem_iff_getElem?.1 hb
  obtain ⟨e, he⟩ := List.mem_iff_getElem?.1 hend
  have hel : e < tr.length := (List.getElem?_eq_some_iff.1 he).1
  obtain ⟨reads, h1, h2⟩ := B.follows j e n b hj he hok
  intro o ho
  have hw : after o = fs (e + 1) o := by
    rw [crash_same B.wf B.history B.plan B.left hn (fun h => h.2 hend) (List.mem_append_left _ ho)]
    refine crash_idle B.wf B.history B.plan B.run hn (List.mem_append_left _ ho) (by omega) (Nat.le_refl _)
      fun k hk _ hrun => hrun.2 ?_
    exact mem_take_of_getElem? he (by omega)
  have hr : R (proc n) (text after) = R (proc n) reads := by
    refine hR _ _ _ fun q hq => ?_
    obtain ⟨k, k1, k2, k3⟩ := h1 q hq
    rw [k3]
    unfold text
    rw [B.inputs hn hj hq k1 (by omega)]
  rw [hr, ← h2 o ho]
  unfold text
  rw [hw]

/-- a process that has left its files alone -/
theorem Building.still (hP : Project P) (hR : R.Declared)
    (B : Building P R tf C ms tr proc clock fs after now) (h0 : Trusted P R tf (fs 0)) {p : Process}
    (hp : P p) (hw : ∀ q ∈ p.writes, after q = fs 0 q)
    (hv : (p.isInvalidated tf after).invalidated = false) (hi : ∀ i ∈ p.input, (after i).isSome) :
    Current R after p := by
  refine h0.same hR hp (fun q hq => ?_) hv hi
  rcases hq with hq | hq
  · by_contra hne
    obtain ⟨f, hf⟩ := Option.isSome_iff_exists.1 (hi q hq)
    have hnew := B.new hne hf
    have := inval_of_newer tf (fs := after) (hP.hasOutput p hp) hq fun o ho fo hfo => by
      have h1 := hw o (List.mem_append_left _ ho)
      rw [h1] at hfo
      have := B.run.old o fo hfo
      unfold writeTime
      rw [hf]
      exact Int.le_of_lt (Int.lt_of_lt_of_le this hnew)
    rw [this] at hv; cases hv
  · exact hw q hq

/-- **C110**, exactly what an execution, complete or interrupted, may spoil: afterwards everything that
seems up to date is, if and only if this is so for the processes that were begun and have not
succeeded. -/
theorem C110_exact (hP : Project P) (hR : R.Declared)
    (B : Building P R tf C ms tr proc clock fs after now) (h0 : Trusted P R tf (fs 0)) :
    Trusted P R tf after ↔ ∀ n, JobBegan tr n → ¬ Succeeded tr C.outcome n →
      ((proc n).isInvalidated tf after).invalidated = false → (∀ i ∈ (proc n).input, (after i).isSome) →
      Current R after (proc n) := by
  constructor
  · exact fun h n hb _ hv hi => h _ (B.part.procs n (crash_node B.wf B.history hb).1) hv hi
  · intro h p hp hv hi
    by_cases hx : ∃ n ∈ C.dag.nodes, proc n = p ∧ Succeeded tr C.outcome n
    · obtain ⟨n, _, rfl, hs⟩ := hx
      exact B.succeeded hR hs
    by_cases hb : ∃ n ∈ C.dag.nodes, proc n = p ∧ JobBegan tr n
    · obtain ⟨n, hn, rfl, hb⟩ := hb
      exact h n hb (fun hs => hx ⟨n, hn, rfl, hs⟩) hv hi
    · exact B.still hP hR h0 hp (fun q hq => B.alone hP hp (fun n hn he hbn => hb ⟨n, hn, he, hbn⟩) hq) hv hi

/-- an execution, complete or not, keeps files trustworthy -/
theorem Building.trusted (hP : Project P) (hR : R.Declared)
    (B : Building P R tf C ms tr proc clock fs after now) (h0 : Trusted P R tf (fs 0))
    (hf : FailuresShow C.outcome proc tr (fs 0) after) : Trusted P R tf after := by
  refine (C110_exact hP hR B h0).2 fun n hb hs hv hi => ?_
  rcases hf n hb hs with h | h
  · rw [inval_of_retcode tf h] at hv; cases hv
  · exact B.still hP hR h0 (B.part.procs n (crash_node B.wf B.history hb).1) h hv hi

end

/-- The files of a project are trustworthy at any time. -/
theorem Reached.trusted {P : Process → Prop} {R : Recipe} {tf : TimeFmt} (hP : Project P)
    (hR : R.Declared) {fs : FS} {now : Int} (h : Reached P R tf fs now) :
    Trusted P R tf fs ∧ ∀ q f, fs q = some f → f.time < now := by
  induction h with
  | @fresh fs now hout hold =>
    refine ⟨fun p hp hv hi => ?_, hold⟩
    obtain ⟨i, hii⟩ := List.exists_mem_of_ne_nil _ (hP.hasInput p hp)
    have := inval_of_newer tf (fs := fs) (hP.hasOutput p hp) hii fun o ho f hf => by
      rw [hout p hp o ho] at hf; cases hf
    rw [this] at hv; cases hv
  | @edit fs fs' now now' _ hnow hchg ih =>
    obtain ⟨ih1, ih2⟩ := ih
    refine ⟨fun p hp hv hi => ih1.same hR hp (fun q hq => ?_) hv hi, fun q f hf => ?_⟩
    · by_contra hne
      obtain ⟨hs, ht⟩ := hchg q hne
      have hqi : q ∈ p.input := hq.resolve_right (hs p hp)
      obtain ⟨f, hf⟩ := Option.isSome_iff_exists.1 (hi q hqi)
      have := inval_of_newer tf (fs := fs') (hP.hasOutput p hp) hqi fun o ho fo hfo => by
        have h1 : fs' o = fs o := by
          by_contra h1
          exact (hchg o h1).1 p hp (List.mem_append_left _ ho)
        rw [h1] at hfo
        have := ih2 o fo hfo
        unfold writeTime
        rw [hf]
        exact Int.le_of_lt (Int.lt_of_lt_of_le this (ht f hf).1)
      rw [this] at hv; cases hv
    · by_cases hc : fs' q = fs q
      · exact Int.lt_of_lt_of_le (ih2 q f (hc ▸ hf)) hnow
      · exact ((hchg q hc).2 f hf).2
  | @remove fs fs' now _ hrm hall ih =>
    obtain ⟨ih1, ih2⟩ := ih
    refine ⟨fun p hp hv hi => ?_, fun q f hf => ?_⟩
    · have hret : RetcodeOk fs' p := retcodeOk_of_valid hv
      rcases hall p hp with h | h | h
      · refine ih1.same hR hp (fun q hq => ?_) hv hi
        by_contra hne
        have hnone := hrm q hne
        rcases hq with hq | hq
        · have := hi q hq
          rw [hnone] at this; cases this
        · rcases List.mem_append.1 hq with hq | hq
          · exact hne (h q hq)
          · rw [Option.mem_toList] at hq
            obtain ⟨file, hfile, _⟩ := hret q hq
            rw [hnone] at hfile; cases hfile
      · obtain ⟨i, hii⟩ := List.exists_mem_of_ne_nil _ (hP.hasInput p hp)
        have := inval_of_newer tf (fs := fs') (hP.hasOutput p hp) hii fun o ho f hf => by
          rw [h o ho] at hf; cases hf
        rw [this] at hv; cases hv
      · exact absurd hret h
    · by_cases hc : fs' q = fs q
      · exact ih2 q f (hc ▸ hf)
      · rw [hrm q hc] at hf; cases hf
  | build _ _ hb hf ih => exact ⟨hb.trusted hP hR ih.1 hf, hb.past⟩

/-- **C110**, the part that holds.  However the files came about, after an execution in which nothing
failed the outputs of every process executed or skipped are what the process makes of its present
inputs.  (Full statement: without the condition `FailuresShow` on earlier executions, see
`C110_counterexample`.) -/
theorem C110_partial (P : Process → Prop) (hP : Project P) (R : Recipe) (hR : R.Declared) (tf : TimeFmt)
    (C : Cfg) (ms : List Move) (proc : Node → Process) (clock : Nat → Int) (fs : Nat → FS) (after : FS)
    (now now' : Int) (h0 : Reached P R tf (fs 0) now)
    (B : Building P R tf C ms (exec C ms).trace proc clock fs after now')
    (hfin : (exec C ms).phase = .finished)
    (hgood : ∀ r ∈ (exec C ms).erec.runs, r.status = .ok ∨ r.status = .skip) :
    ∀ n ∈ C.dag.nodes, Current R after (proc n) := by
  obtain ⟨hI, hT⟩ := both_exec B.wf ms
  obtain ⟨hperm, _, _⟩ := C02_one_record C B.wf ms hfin
  have hac : ¬ Cyclic C.dag := fun hc => ((C09_exact C B.wf ms).2 hc).1 hfin
  classical
  by_contra hno
  push Not at hno
  obtain ⟨n₀, hn₀, hbad₀⟩ := hno
  have hne : C.dag.nodes.filter (fun n => ¬ Current R after (proc n)) ≠ [] :=
    List.ne_nil_of_mem (List.mem_filter.2 ⟨hn₀, by simpa using hbad₀⟩)
  obtain ⟨n, hnf, hmin⟩ := exists_minimal (R := AfterEdge C.dag) hac _ _ (Nat.le_refl _) hne
  obtain ⟨hn, hbad⟩ := List.mem_filter.1 hnf
  have hbad : ¬ Current R after (proc n) := by simpa using hbad
  have hmin : ∀ m ∈ C.dag.nodes, AfterEdge C.dag n m → Current R after (proc m) := by
    intro m hm he
    by_contra hc
    exact hmin m (List.mem_filter.2 ⟨hm, by simpa using hc⟩) he
  obtain ⟨r, hr, rfl⟩ : ∃ r ∈ (exec C ms).erec.runs, r.node = n := List.mem_map.1 (hperm.mem_iff.2 hn)
  have hr' : r ∈ recsOf (exec C ms).trace := by rw [hT.recs]; exact hr
  have h6 := C06_status_meaning C B.wf ms r hr'
  rcases hgood r hr with hst | hst
  · rw [hst] at h6
    obtain ⟨_, _, rr, hrr, h3, _⟩ := h6
    have hbe := began_of_status hT hr
    exact hbad (B.succeeded hR ⟨hbe.2 (hbe.1.2 (.inl hst)), rr, hrr, h3⟩)
  · rw [hst] at h6
    have hns : ¬ Stale C.dag C.ask r.node := h6.2.2.2.1
    have hfresh : ∀ m ∈ C.dag.nodes, ¬ Stale C.dag C.ask m → ∀ q ∈ (proc m).writes, after q = fs 0 q := by
      intro m hm hsm q hq
      exact crash_fresh B.wf B.history B.plan B.run B.left hm
        (fun hb => hsm (crash_node B.wf B.history hb).2) hq
    have hsame : ∀ q, q ∈ (proc r.node).input ∨ q ∈ (proc r.node).writes → after q = fs 0 q := by
      rintro q (hq | hq)
      · rcases B.plan.inputs _ hn q hq with hs | ⟨m, hm, hqm, _, hiv⟩
        · exact crash_source B.wf B.history B.run B.left hs
        · refine hfresh m hm (fun hsm => hns ?_) q (List.mem_append_left _ hqm)
          obtain ⟨x, h1, h2⟩ := hsm
          exact ⟨x, Relation.ReflTransGen.head hiv h1, h2⟩
      · exact hfresh _ hn hns q hq
    have hv : ((proc r.node).isInvalidated tf after).invalidated = false := by
      rw [isInvalidated_congr tf (fs := after) (fs' := fs 0) fun q hq => hsame q hq]
      by_contra hne
      refine hns ⟨r.node, .refl, (selfStale_iff (B.asks _ hn)).2 (by simpa using hne)⟩
    refine hbad ((h0.trusted hP hR).1.same hR (B.part.procs _ hn) hsame hv fun i hi => ?_)
    rcases B.plan.inputs _ hn i hi with hs | ⟨m, hm, hqm, he, _⟩
    · rw [hsame i (.inl hi)]
      exact B.run.sources _ hn i hi hs
    · exact (hmin m hm he).present hqm

/-- **C110**, clean builds.  Two executions in which nothing failed, after whatever histories, with
whatever dags, numbers of threads and schedules: if the files written by hand have the same texts, the
outputs of every process both have executed or skipped have the same texts.  The second may be the first
execution in a fresh checkout. -/
theorem C110_clean (P : Process → Prop) (hP : Project P) (R : Recipe) (hR : R.Declared) (tf tf' : TimeFmt)
    (C C' : Cfg) (ms ms' : List Move) (proc proc' : Node → Process) (clock clock' : Nat → Int)
    (fs fs' : Nat → FS) (after after' : FS) (now now1 now' now1' : Int)
    (h0 : Reached P R tf (fs 0) now) (h0' : Reached P R tf' (fs' 0) now')
    (B : Building P R tf C ms (exec C ms).trace proc clock fs after now1)
    (B' : Building P R tf' C' ms' (exec C' ms').trace proc' clock' fs' after' now1')
    (hfin : (exec C ms).phase = .finished) (hfin' : (exec C' ms').phase = .finished)
    (hgood : ∀ r ∈ (exec C ms).erec.runs, r.status = .ok ∨ r.status = .skip)
    (hgood' : ∀ r ∈ (exec C' ms').erec.runs, r.status = .ok ∨ r.status = .skip)
    (hsrc : ∀ q, Handwritten P q → text after q = text after' q) :
    ∀ n ∈ C.dag.nodes, ∀ n' ∈ C'.dag.nodes, proc n = proc' n' → ∀ o ∈ (proc n).output,
      text after o = text after' o := by
  have hcur := C110_partial P hP R hR tf C ms proc clock fs after now now1 h0 B hfin hgood
  have hcur' := C110_partial P hP R hR tf' C' ms' proc' clock' fs' after' now' now1' h0' B' hfin' hgood'
  have hac : ¬ Cyclic C.dag := fun hc => ((C09_exact C B.wf ms).2 hc).1 hfin
  classical
  by_contra hno
  push Not at hno
  obtain ⟨n₀, hn₀, n₀', hn₀', he₀, o₀, ho₀, hbad₀⟩ := hno
  have hne : C.dag.nodes.filter (fun n => ∃ n' ∈ C'.dag.nodes, proc n = proc' n' ∧
      ∃ o ∈ (proc n).output, text after o ≠ text after' o) ≠ [] :=
    List.ne_nil_of_mem (List.mem_filter.2 ⟨hn₀, by
      simpa using ⟨n₀', hn₀', he₀, o₀, ho₀, hbad₀⟩⟩)
  obtain ⟨n, hnf, hmin⟩ := exists_minimal (R := AfterEdge C.dag) hac _ _ (Nat.le_refl _) hne
  obtain ⟨hn, hbad⟩ := List.mem_filter.1 hnf
  obtain ⟨n', hn', he, o, ho, hbad⟩ := of_decide_eq_true hbad
  have ho' : o ∈ (proc' n').output := he ▸ ho
  rw [hcur n hn o ho, hcur' n' hn' o ho', ← he] at hbad
  refine hbad ?_
  rw [hR (proc n) (text after) (text after') fun q hq => ?_]
  rcases B.plan.inputs n hn q hq with hs | ⟨m, hm, hqm, hedge, _⟩
  · exact hsrc q (B.part.source hn hq hs)
  · obtain ⟨m', hm', hem⟩ := B'.part.makers n' hn' q (he ▸ hq) (proc m) (B.part.procs m hm)
      (List.mem_append_left _ hqm)
    by_contra hc
    exact hmin m (List.mem_filter.2 ⟨hm, decide_eq_true ⟨m', hm', hem.symm, q, hqm, hc⟩⟩) hedge

/-- **C110**, when failures show.  A process with a retcode file whose child ran to its end and did not
exit with 0 is known by the file, unless writing or removing that file went wrong. -/
theorem C110_failure (P : Process → Prop) (R : Recipe) (tf : TimeFmt) (C : Cfg) (ms : List Move)
    (tr : List Event) (proc : Node → Process) (clock : Nat → Int) (fs : Nat → FS) (after : FS) (now : Int)
    (B : Building P R tf C ms tr proc clock fs after now) (n : Node) (hn : n ∈ C.dag.nodes) (e : Nat)
    (he : tr[e]? = some (.jobEnd n)) (os : POS) (before : FS)
    (hfs : ∀ q ∈ (proc n).writes, fs (e + 1) q = ((proc n).run os before).2 q) (f : Str)
    (hf : (proc n).retcodeFile = some f) (hc : os.Completed) (hrm : os.removeFails = none)
    (ht : ¬ os.Torn) (h0 : os.exit ≠ 0) : ¬ RetcodeOk after (proc n) := by
  have hel : e < tr.length := (List.getElem?_eq_some_iff.1 he).1
  have hw : f ∈ (proc n).writes := by simp [Process.writes, hf]
  have hstay : after f = ((proc n).run os before).2 f := by
    rw [← hfs f hw, crash_same B.wf B.history B.plan B.left hn (fun h => h.2 (List.mem_of_getElem? he)) hw]
    refine crash_idle B.wf B.history B.plan B.run hn hw (by omega) (Nat.le_refl _) fun k hk _ hrun => hrun.2 ?_
    exact mem_take_of_getElem? he (by omega)
  intro hok
  obtain ⟨file, h1, h2⟩ := hok f hf
  rw [hstay, retcode_left os before (proc n) f hf hc hrm] at h1
  split at h1
  · cases h1
    have := (C82_torn _ _).1 h2
    rcases this with h | h | h
    · exact h0 h
    · exact ht ⟨by assumption, .inl h⟩
    · exact ht ⟨by assumption, .inr h⟩
  · cases h1

/-! ## a world in which processes follow a recipe, for examples -/

/-- what a job that exits with `code` returns -/
def recOutcome (proc : Node → Process) (code : Node → Int) (n : Node) : JobOut :=
  .ret { retcode := some (code n)
         output := if code n ≠ 0 then [⟨.standard, (proc n).shown⟩] else []
         log := (proc n).shown }

/-- All files of a process are written when its job ends, at `base` plus the number of the event; a
process that fails writes an empty text. -/
def recFs (R : Recipe) (proc : Node → Process) (code : Node → Int) (base : Int) (fs0 : FS)
    (tr : List Event) : Nat → FS
  | 0 => fs0
  | i + 1 => match tr[i]? with
    | some (.jobEnd n) => fun q =>
      if q ∈ (proc n).output then
        some ⟨base + i, if code n = 0 then R (proc n) (text (recFs R proc code base fs0 tr i)) q else []⟩
      else if (proc n).retcodeFile = some q then some ⟨base + i, showInt (code n)⟩
      else recFs R proc code base fs0 tr i q
    | _ => recFs R proc code base fs0 tr i

section
variable {R : Recipe} {proc : Node → Process} {code : Node → Int} {base : Int} {fs0 : FS}
  {tr : List Event} {g : Dag}

theorem recFs_end {i : Nat} {n : Node} (h : tr[i]? = some (.jobEnd n)) (q : Str) :
    recFs R proc code base fs0 tr (i + 1) q =
      if q ∈ (proc n).output then
        some ⟨base + i, if code n = 0 then R (proc n) (text (recFs R proc code base fs0 tr i)) q else []⟩
      else if (proc n).retcodeFile = some q then some ⟨base + i, showInt (code n)⟩
      else recFs R proc code base fs0 tr i q := by
  rw [recFs]
  simp only [h]

theorem recFs_other {i : Nat} (h : ∀ n, tr[i]? ≠ some (.jobEnd n)) :
    recFs R proc code base fs0 tr (i + 1) = recFs R proc code base fs0 tr i := by
  rw [recFs]
  split
  · rename_i n he; exact absurd he (h n)
  · rfl

theorem rec_world (hret : ∀ n f, (proc n).retcodeFile = some f → f ∉ (proc n).output)
    (old : ∀ q f, fs0 q = some f → f.time < base)
    (sources : ∀ n ∈ g.nodes, ∀ q ∈ (proc n).input, (∀ m ∈ g.nodes, q ∉ (proc m).writes) →
      (fs0 q).isSome) (hok : canonOk tr = true) :
    BuildRun g (recOutcome proc code) proc tr (fun i => base + i) (recFs R proc code base fs0 tr) := by
  refine ⟨fun i j h => by omega, fun q f h => ?_, sources, fun i hi q hq => ?_, fun i n hi => ?_⟩
  · have := old q f h
    simpa using this
  · by_cases hx : ∃ n, tr[i]? = some (.jobEnd n)
    · obtain ⟨n, he⟩ := hx
      rw [recFs_end he] at hq ⊢
      by_cases h1 : q ∈ (proc n).output
      · refine ⟨⟨n, (canonOk_spec hok he).1, List.mem_append_left _ h1⟩, ?_⟩
        rw [if_pos h1]; intro f hf; cases hf; rfl
      · by_cases h2 : (proc n).retcodeFile = some q
        · refine ⟨⟨n, (canonOk_spec hok he).1, by simp [Process.writes, h2]⟩, ?_⟩
          rw [if_neg h1, if_pos h2]; intro f hf; cases hf; rfl
        · rw [if_neg h1, if_neg h2] at hq
          exact absurd rfl hq
    · exact absurd (by rw [recFs_other fun n h => hx ⟨n, h⟩]) hq
  · let os : POS :=
      { start := ⟨0, false, []⟩, chunks := [], drain := ⟨0, false, []⟩, exit := code n
        wait := ⟨0, false, []⟩
        effect := fun fs q => if q ∈ (proc n).output then some ⟨base + i, if code n = 0 then
          R (proc n) (text (recFs R proc code base fs0 tr i)) q else []⟩ else fs q
        removeFails := none, canWrite := true, room := (showInt (code n)).length, now := base + i }
    have hc : os.Completed := ⟨rfl, rfl, rfl⟩
    refine ⟨os, recFs R proc code base fs0 tr i, ?_, fun q hq => ?_, fun _ _ => ⟨rfl, ?_⟩⟩
    · rw [prun_done _ _ _ hc]
      cases hf : (proc n).retcodeFile <;> rfl
    · rw [prun_done _ _ _ hc, recFs_end hi]
      cases hf : (proc n).retcodeFile with
      | none =>
        have h1 : q ∈ (proc n).output := by simpa [Process.writes, hf] using hq
        show _ = (if q ∈ (proc n).output then _ else _)
        rw [if_pos h1, if_pos h1]
      | some f =>
        show _ = (if q = f then _ else if q ∈ (proc n).output then _ else _)
        by_cases h2 : q = f
        · subst h2
          rw [if_neg (hret n q hf), if_pos rfl, if_pos rfl]
          show _ = some (⟨_, (showInt (code n)).take (showInt (code n)).length⟩ : PFile)
          rw [List.take_length]
        · have h1 : q ∈ (proc n).output := by
            simp only [Process.writes, hf, Option.toList_some, List.mem_append,
              List.mem_singleton] at hq
            exact hq.resolve_right h2
          rw [if_pos h1, if_neg h2, if_pos h1]
    · intro o ho
      refine ⟨_, if_pos ho, fun j b hj => ?_⟩
      have := (canonOk_spec hok hi).2 j b hj
      show base + (j : Int) < base + i
      omega

theorem rec_follows (hok : canonOk tr = true) :
    Follows R (recOutcome proc code) proc tr (recFs R proc code base fs0 tr) := by
  rintro j e n b hj he ⟨r, hr, h0⟩
  refine ⟨text (recFs R proc code base fs0 tr e), fun q _ => ⟨e, (canonOk_spec hok he).2 j b hj,
    Nat.le_refl _, rfl⟩, fun o ho => ?_⟩
  unfold recOutcome at hr
  cases hr
  have h0 : code n = 0 := by simpa using h0
  rw [text, recFs_end he, if_pos ho, if_pos h0]
  rfl

end

namespace Ex

/-- every output is the text of the first input with a mark -/
def mark : Recipe := fun p ins _ => (p.input.head?.bind ins).getD [] ++ ['+']

theorem mark_declared : mark.Declared := by
  intro p ins ins' h
  funext o
  unfold mark
  cases hi : p.input with
  | nil => rfl
  | cons i is => simp [h i (by simp [hi])]

/-- `a → b → c` -/
def rproj (p : Process) : Prop := p = bproc 1 ∨ p = bproc 2

def rcode (_ : Node) : Int := 0

def rcfg (fs : FS) (tc : Nat) (code : Node → Int) : Cfg :=
  { bcfg true fs with outcome := recOutcome bproc code, threadCount := tc }

theorem rproject : Project rproj := by
  have hw1 : (bproc 1).writes = [['b']] := rfl
  have hw2 : (bproc 2).writes = [['c'], ['r']] := rfl
  refine ⟨?_, ?_, ?_⟩
  · rintro p p' (rfl | rfl) (rfl | rfl) hne q hq hq'
    · exact hne rfl
    · rw [hw1] at hq; rw [hw2] at hq'; simp at hq hq'; subst hq; simp at hq'
    · rw [hw2] at hq; rw [hw1] at hq'; simp at hq hq'; subst hq'; simp at hq
    · exact hne rfl
  · rintro p (rfl | rfl) <;> decide
  · rintro p (rfl | rfl) <;> decide

theorem rpart : PartOf rproj (bdag true) bproc := by
  refine ⟨?_, ?_, ?_⟩
  · intro n hn
    have hn : n = 2 ∨ n = 1 := by simpa [bdag] using hn
    rcases hn with rfl | rfl
    · exact .inr rfl
    · exact .inl rfl
  · show ∀ n ∈ [2, 1], ∀ m ∈ [2, 1], bproc n = bproc m → n = m
    decide +kernel
  · rintro n hn q hq p (rfl | rfl) _
    · exact ⟨1, by show 1 ∈ [2, 1]; decide, rfl⟩
    · exact ⟨2, by show 2 ∈ [2, 1]; decide, rfl⟩

/-- a complete execution of both processes -/
def rexec (fs : FS) (tc : Nat) (code : Node → Int) (ms : List Move) : St := exec (rcfg fs tc code) ms

/-- the files meanwhile -/
def rfiles (fs : FS) (tc : Nat) (code : Node → Int) (base : Int) (ms : List Move) : Nat → FS :=
  recFs mark bproc code base fs (rexec fs tc code ms).trace

/-- the files in the end -/
def rleft (fs : FS) (tc : Nat) (code : Node → Int) (base : Int) (ms : List Move) : FS :=
  rfiles fs tc code base ms (rexec fs tc code ms).trace.length

theorem rbuilding (fs : FS) (tc : Nat) (code : Node → Int) (base now : Int) (ms : List Move)
    (old : ∀ q f, fs q = some f → f.time < base) (ha : (fs ['a']).isSome)
    (hok : canonOk (rexec fs tc code ms).trace = true)
    (hnow : base + (rexec fs tc code ms).trace.length ≤ now) :
    Building rproj mark (fun _ => []) (rcfg fs tc code) ms (rexec fs tc code ms).trace bproc
      (fun i => base + i) (rfiles fs tc code base ms) (rleft fs tc code base ms) now := by
  have W : BuildRun (bdag true) (recOutcome bproc code) bproc (rexec fs tc code ms).trace
      (fun i => base + i) (rfiles fs tc code base ms) := by
    refine rec_world ?_ old ?_ hok
    · intro n f hf
      unfold bproc at hf ⊢
      split at hf
      · cases hf
      · rename_i h
        cases hf
        rw [if_neg h]
        show ['r'] ∉ [['c']]
        decide
    · intro n hn q hq hs
      have hn : n = 2 ∨ n = 1 := by simpa [bdag] using hn
      rcases hn with rfl | rfl
      · exfalso
        have : q = ['b'] := by simpa [bproc] using hq
        subst this
        exact hs 1 (by show 1 ∈ [2, 1]; decide) (by decide +kernel)
      · have : q = ['a'] := by simpa [bproc] using hq
        subst this
        exact ha
  exact
    { wf := bwf true fs
      part := rpart
      plan := bplan fs
      history := List.prefix_refl _
      asks := fun _ _ => rfl
      run := W
      follows := rec_follows hok
      left := fun _ _ => rfl
      late := fun q f h => absurd rfl h
      past := fun q f h => Int.lt_of_lt_of_le (W.past (Nat.le_refl _) h) hnow }

/-- a checkout with text `x` in `a` -/
def rfs (x : Str) : FS := fun q => if q = ['a'] then some ⟨-5, x⟩ else none

theorem rfs_fresh (x : Str) : Reached rproj mark (fun _ => []) (rfs x) 0 := by
  refine .fresh ?_ ?_
  · rintro p (rfl | rfl) o ho
    · have : o = ['b'] := by simpa [bproc] using ho
      subst this; rfl
    · have : o = ['c'] := by simpa [bproc] using ho
      subst this; rfl
  · intro q f h
    unfold rfs at h
    split at h
    · cases h; show (-5 : Int) < 0; decide
    · cases h

/-- `a` is changed to `x` -/
def redit (fs : FS) (x : Str) : FS := fun q => if q = ['a'] then some ⟨100, x⟩ else fs q

/-- the second process fails -/
def rbad (n : Node) : Int := if n = 2 then 3 else 0

/-- after the first execution, in which the second process fails -/
def rfirst : FS := rleft (rfs ['1']) 0 rbad 0 bmoves

/-- after an edit and a second execution, on a thread -/
def rsecond : FS := rleft (redit rfirst ['2']) 1 rcode 101 emoves

theorem rfs_old (x : Str) : ∀ q f, rfs x q = some f → f.time < 0 := by
  intro q f h
  unfold rfs at h
  split at h
  · cases h; show (-5 : Int) < 0; decide
  · cases h

theorem rfirst_reached : Reached rproj mark (fun _ => []) rfirst 100 := by
  refine .build (rfs_fresh ['1']) (Int.le_refl _)
    (rbuilding (rfs ['1']) 0 rbad 0 100 bmoves (rfs_old _) (by decide) (by decide +kernel) (by decide +kernel)) ?_
  intro n hb hs
  have hn : n ∈ [2, 1] :=
    (crash_node (C := rcfg (rfs ['1']) 0 rbad) (bwf true (rfs ['1'])) (List.prefix_refl _) hb).1
  have hn : n = 2 ∨ n = 1 := by simpa using hn
  rcases hn with rfl | rfl
  · left
    intro h
    obtain ⟨file, h1, h2⟩ := h ['r'] rfl
    have h3 : ((rfirst ['r']).map fun f => readInt f.content) = some 3 := by decide +kernel
    change rfirst ['r'] = some file at h1
    rw [h1, Option.map_some, h2] at h3
    cases h3
  · exfalso
    refine hs ⟨?_, _, rfl, rfl⟩
    show Event.jobEnd 1 ∈ (rexec (rfs ['1']) 0 rbad bmoves).trace
    decide +kernel

theorem redit_reached : Reached rproj mark (fun _ => []) (redit rfirst ['2']) 101 := by
  refine .edit rfirst_reached (by decide) fun q hq => ?_
  have : q = ['a'] := by
    by_contra h
    exact hq (by unfold redit; rw [if_neg h])
  subst this
  refine ⟨?_, fun f hf => ?_⟩
  · rintro p (rfl | rfl) <;> decide +kernel
  · cases hf
    exact ⟨Int.le_refl _, by show (100 : Int) < 101; decide⟩

theorem rsecond_building : Building rproj mark (fun _ => []) (rcfg (redit rfirst ['2']) 1 rcode) emoves
    (rexec (redit rfirst ['2']) 1 rcode emoves).trace bproc (fun i => 101 + i)
    (rfiles (redit rfirst ['2']) 1 rcode 101 emoves) rsecond 200 :=
  rbuilding _ 1 rcode 101 200 emoves (redit_reached.trusted rproject mark_declared).2 (by decide +kernel)
    (by decide +kernel) (by decide +kernel)

end Ex

/-- The hypotheses of `C110_partial` and `C110_clean` are met: an execution in which the second process
fails, an edit, and an execution on one thread; compared with a fresh checkout of the edited source,
executed without threads. -/
example : text Ex.rsecond ['c'] = some ['2', '+', '+'] ∧
    text (Ex.rleft (Ex.rfs ['2']) 0 Ex.rcode 0 Ex.bmoves) ['c'] = text Ex.rsecond ['c'] ∧
    text Ex.rfirst ['c'] = some [] ∧ text Ex.rfirst ['b'] = some ['1', '+'] := by
  have hg : ∀ r ∈ (exec (Ex.rcfg (Ex.redit Ex.rfirst ['2']) 1 Ex.rcode) Ex.emoves).erec.runs,
      r.status = .ok ∨ r.status = .skip := by decide +kernel
  have hg' : ∀ r ∈ (exec (Ex.rcfg (Ex.rfs ['2']) 0 Ex.rcode) Ex.bmoves).erec.runs,
      r.status = .ok ∨ r.status = .skip := by decide +kernel
  have hf : (Ex.rexec (Ex.redit Ex.rfirst ['2']) 1 Ex.rcode Ex.emoves).phase = .finished := by
    decide +kernel
  have hf' : (Ex.rexec (Ex.rfs ['2']) 0 Ex.rcode Ex.bmoves).phase = .finished := by decide +kernel
  have hcur := C110_partial _ Ex.rproject _ Ex.mark_declared _
    (Ex.rcfg (Ex.redit Ex.rfirst ['2']) 1 Ex.rcode) Ex.emoves _ _
    (Ex.rfiles (Ex.redit Ex.rfirst ['2']) 1 Ex.rcode 101 Ex.emoves) _ _ _ Ex.redit_reached
    Ex.rsecond_building hf hg
  have B := Ex.rbuilding (Ex.rfs ['2']) 0 Ex.rcode 0 100 Ex.bmoves (Ex.rfs_old _) (by decide)
    (by decide +kernel) (by decide +kernel)
  have h := C110_clean _ Ex.rproject _ Ex.mark_declared _ _ (Ex.rcfg (Ex.rfs ['2']) 0 Ex.rcode)
    (Ex.rcfg (Ex.redit Ex.rfirst ['2']) 1 Ex.rcode) Ex.bmoves Ex.emoves _ _ _ _
    (Ex.rfiles (Ex.rfs ['2']) 0 Ex.rcode 0 Ex.bmoves)
    (Ex.rfiles (Ex.redit Ex.rfirst ['2']) 1 Ex.rcode 101 Ex.emoves) _ _ _ _ _ _
    (Ex.rfs_fresh ['2']) Ex.redit_reached B Ex.rsecond_building hf' hf
    hg' hg (by
      intro q hq
      have h1 : q ∉ (Ex.bproc 1).writes := hq _ (.inl rfl)
      have h2 : q ∉ (Ex.bproc 2).writes := hq _ (.inr rfl)
      have s1 : Ex.rleft (Ex.rfs ['2']) 0 Ex.rcode 0 Ex.bmoves q = Ex.rfs ['2'] q := by
        refine crash_source B.wf B.history B.run B.left fun m hm => ?_
        have hm : m = 2 ∨ m = 1 := by simpa [Ex.rcfg, Ex.bcfg, Ex.bdag] using hm
        rcases hm with rfl | rfl <;> assumption
      have s2 : Ex.rsecond q = Ex.redit Ex.rfirst ['2'] q := by
        refine crash_source Ex.rsecond_building.wf Ex.rsecond_building.history Ex.rsecond_building.run
          Ex.rsecond_building.left fun m hm => ?_
        have hm : m = 2 ∨ m = 1 := by simpa [Ex.rcfg, Ex.bcfg, Ex.bdag] using hm
        rcases hm with rfl | rfl <;> assumption
      have B1 := Ex.rbuilding (Ex.rfs ['1']) 0 Ex.rbad 0 100 Ex.bmoves (Ex.rfs_old _) (by decide)
        (by decide +kernel) (by decide +kernel)
      have s3 : Ex.rfirst q = Ex.rfs ['1'] q := by
        refine crash_source B1.wf B1.history B1.run B1.left fun m hm => ?_
        have hm : m = 2 ∨ m = 1 := by simpa [Ex.rcfg, Ex.bcfg, Ex.bdag] using hm
        rcases hm with rfl | rfl <;> assumption
      unfold text
      rw [s1, s2]
      unfold Ex.redit Ex.rfs
      by_cases hqa : q = ['a']
      · rw [if_pos hqa, if_pos hqa]; rfl
      · rw [if_neg hqa, if_neg hqa, s3]
        unfold Ex.rfs
        rw [if_neg hqa])
    2 (by show 2 ∈ [2, 1]; decide) 2 (by show 2 ∈ [2, 1]; decide) rfl ['c'] (by decide)
  refine ⟨?_, h, by decide +kernel, by decide +kernel⟩
  have hb := hcur 1 (by show 1 ∈ [2, 1]; decide) ['b'] (by decide)
  have hc := hcur 2 (by show 2 ∈ [2, 1]; decide) ['c'] (by decide)
  have ha : text Ex.rsecond ['a'] = some ['2'] := by decide +kernel
  have hm : ∀ (p : Process) (i : Str) (ins : Str → Option Str) (o : Str), p.input = [i] →
      Ex.mark p ins o = (ins i).getD [] ++ ['+'] := by
    intro p i ins o h
    unfold Ex.mark
    rw [h]; rfl
  rw [hc, hm _ ['b'] _ _ (by decide), hb, hm _ ['a'] _ _ (by decide), ha]
  rfl

namespace Ex

/-- the first process fails; it has no retcode file -/
def rwrong (n : Node) : Int := if n = 1 then 3 else 0

def rpoor : FS := rleft (rfs ['1']) 0 rwrong 0 bmoves

end Ex

/-- **C110** is false of the code: a process without a retcode file writes its output and fails.  In the
next execution it is skipped, nothing fails, and the output is not what the process makes of its input;
neither is what was made from it what a clean build makes. -/
theorem C110_counterexample : ∃ (P : Process → Prop) (R : Recipe) (tf : TimeFmt) (C C2 : Cfg)
    (ms ms2 : List Move) (proc : Node → Process) (clock clock2 : Nat → Int) (fs fs2 : Nat → FS)
    (after after2 : FS) (now now2 now3 : Int),
    Project P ∧ R.Declared ∧ Reached P R tf (fs 0) now ∧
    Building P R tf C ms (exec C ms).trace proc clock fs after now2 ∧
    (exec C ms).phase = .finished ∧ fs2 0 = after ∧ now2 ≤ clock2 0 ∧
    Building P R tf C2 ms2 (exec C2 ms2).trace proc clock2 fs2 after2 now3 ∧
    (exec C2 ms2).phase = .finished ∧
    (∀ r ∈ (exec C2 ms2).erec.runs, r.status = .ok ∨ r.status = .skip) ∧
    (∃ n ∈ C2.dag.nodes, ¬ Current R after2 (proc n)) ∧
    text after2 ['c'] ≠ text (Ex.rleft (Ex.rfs ['1']) 0 Ex.rcode 0 Ex.bmoves) ['c'] := by
  have B := Ex.rbuilding (Ex.rfs ['1']) 0 Ex.rwrong 0 100 Ex.bmoves (Ex.rfs_old _) (by decide)
    (by decide +kernel) (by decide +kernel)
  have B2 := Ex.rbuilding Ex.rpoor 0 Ex.rcode 100 200 Ex.bmoves B.past (by decide +kernel)
    (by decide +kernel) (by decide +kernel)
  have hf : (Ex.rexec (Ex.rfs ['1']) 0 Ex.rwrong Ex.bmoves).phase = .finished := by decide +kernel
  have hf2 : (Ex.rexec Ex.rpoor 0 Ex.rcode Ex.bmoves).phase = .finished := by decide +kernel
  refine ⟨Ex.rproj, Ex.mark, fun _ => [], _, _, _, _, Ex.bproc, fun i => 0 + i, fun i => 100 + i,
    Ex.rfiles (Ex.rfs ['1']) 0 Ex.rwrong 0 Ex.bmoves, Ex.rfiles Ex.rpoor 0 Ex.rcode 100 Ex.bmoves, _, _,
    0, 100, 200, Ex.rproject, Ex.mark_declared, Ex.rfs_fresh ['1'], B, hf, rfl, ?_, B2, hf2, ?_,
    ⟨1, by show 1 ∈ [2, 1]; decide, fun h => ?_⟩, by decide +kernel⟩
  · show (100 : Int) ≤ 100 + 0
    decide
  · decide +kernel
  · have h1 := h ['b'] (by decide)
    have h2 : text (Ex.rleft Ex.rpoor 0 Ex.rcode 100 Ex.bmoves) ['b'] = some [] := by decide +kernel
    rw [h2] at h1
    have := Option.some.inj h1
    unfold Ex.mark at this
    simp at this

end Joque
