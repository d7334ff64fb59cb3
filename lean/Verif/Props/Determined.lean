import Verif.Spec.Workspace
import Verif.Props.Race
import Verif.Props.Exec4

/-! # What an execution leaves does not depend on the schedule (C123) -/

namespace Joque

section
variable {K V : Type} {A : Footprint K} {J : Commands K V} {g : Dag}

/-- the job of `n` begins with the `i`-th event -/
def BeginsAt (tr : List Event) (n : Node) (i : Nat) : Prop := ∃ b, tr[i]? = some (.jobBegin n b)

theorem beginsAt_began {tr : List Event} {n : Node} {i : Nat} (h : BeginsAt tr n i) : JobBegan tr n :=
  let ⟨b, hb⟩ := h
  ⟨b, List.mem_of_getElem? hb⟩

theorem began_beginsAt {tr : List Event} {n : Node} (h : JobBegan tr n) : ∃ i, BeginsAt tr n i := by
  obtain ⟨b, hb⟩ := h
  obtain ⟨i, hi⟩ := List.mem_iff_getElem?.1 hb
  exact ⟨i, b, hi⟩

/-- a history in which each job is executed at most once, to its end, and in the order of the dag -/
structure Orderly (g : Dag) (tr : List Event) : Prop where
  node : ∀ {n i}, BeginsAt tr n i → n ∈ g.nodes
  once : ∀ {n i j}, BeginsAt tr n i → BeginsAt tr n j → i = j
  ends : ∀ {n i}, BeginsAt tr n i → ∃ e, i < e ∧ tr[e]? = some (.jobEnd n)
  order : ∀ {n m i j}, Relation.TransGen (AfterEdge g) n m → BeginsAt tr m i → BeginsAt tr n j →
    ∃ e, i < e ∧ e < j ∧ tr[e]? = some (.jobEnd m)

theorem orderly_finished {C : Cfg} (hwf : C.dag.WF) (ms : List Move)
    (hfin : (exec C ms).phase = .finished) : Orderly C.dag (exec C ms).trace := by
  obtain ⟨hI, hT⟩ := both_exec hwf ms
  have hperm := (C02_one_record C hwf ms hfin).1
  have hnode : ∀ {n i}, BeginsAt (exec C ms).trace n i → n ∈ C.dag.nodes := by
    rintro n i ⟨b, hb⟩
    obtain ⟨pre, post, h, _⟩ := split_get hb
    exact (C02_at_most_once C hwf ms pre post n b h).1
  refine ⟨hnode, ?_, ?_, ?_⟩
  · rintro n i j ⟨b, hb⟩ ⟨b', hb'⟩
    exact begin_unique hwf ms hb hb'
  · rintro n i ⟨b, hb⟩
    obtain ⟨r, hr, rfl⟩ := List.mem_map.1 (hperm.mem_iff.2 (hnode ⟨b, hb⟩))
    have he := (began_of_status hT hr).2 ⟨b, List.mem_of_getElem? hb⟩
    obtain ⟨e, he⟩ := List.mem_iff_getElem?.1 he
    refine ⟨e, ?_, he⟩
    exact tag_lt hwf ms hb he (n := r.node) (x := .begin b) (y := .end) (by simp [tagOf]) (by simp [tagOf])
      (by simp [Tag.rank])
  · rintro n m i j hnm ⟨b, hb⟩ ⟨b', hb'⟩
    obtain ⟨e, he, h1, h2⟩ := C63_transitive C hwf ms n m b' b i j hnm hb hb'
    exact ⟨e, hb_lt h1, hb_lt h2, he⟩

theorem Orderly.irrefl {tr : List Event} (o : Orderly g tr) {n : Node} {i : Nat}
    (h : BeginsAt tr n i) : ¬ Relation.TransGen (AfterEdge g) n n := by
  intro hc
  obtain ⟨e, h1, h2, _⟩ := o.order hc h h
  omega

/-- the job of `m`, which may write `q`, begins before the `p`-th event -/
def WroteBefore (A : Footprint K) (tr : List Event) (p : Nat) (q : K) (m : Node) : Prop :=
  A.writes m q ∧ ∃ i < p, BeginsAt tr m i

/-- a running job began and has not ended -/
theorem running_index {tr : List Event} (o : Orderly g tr) {k i : Nat} {n : Node}
    (h : Running (tr.take k) n) (hi : BeginsAt tr n i) :
    i < k ∧ ∀ e, tr[e]? = some (.jobEnd n) → k ≤ e := by
  obtain ⟨⟨b, hb⟩, hne⟩ := h
  obtain ⟨j, hj⟩ := List.mem_iff_getElem?.1 hb
  have hjk : j < k := by
    by_contra hc
    rw [List.getElem?_take, if_neg hc] at hj
    cases hj
  rw [List.getElem?_take_of_lt hjk] at hj
  rw [o.once hi ⟨b, hj⟩]
  refine ⟨hjk, fun e he => ?_⟩
  by_contra hc
  refine hne (List.mem_iff_getElem?.2 ⟨e, ?_⟩)
  rw [List.getElem?_take_of_lt (by omega)]
  exact he

theorem running_begins {tr : List Event} {k : Nat} {n : Node} (h : Running (tr.take k) n) :
    ∃ i < k, BeginsAt tr n i := by
  obtain ⟨⟨b, hb⟩, _⟩ := h
  obtain ⟨j, hj⟩ := List.mem_iff_getElem?.1 hb
  have hjk : j < k := by
    by_contra hc
    rw [List.getElem?_take, if_neg hc] at hj
    cases hj
  rw [List.getElem?_take_of_lt hjk] at hj
  exact ⟨j, hjk, b, hj⟩

/-- nothing changes while no job that may write the place is executing -/
theorem Workspace.stays {out : Node → JobOut} {tr : List Event} {cont : Nat → K → V}
    (W : Workspace A J out tr cont) {q : K} {i j : Nat} (hij : i ≤ j) (hj : j ≤ tr.length)
    (h : ∀ k, i ≤ k → k < j → ∀ n, Running (tr.take k) n → ¬ A.writes n q) : cont j q = cont i q := by
  induction j with
  | zero => rw [Nat.le_zero.1 hij]
  | succ j ih =>
    rcases Nat.lt_or_ge i (j + 1) with hlt | hge
    · rw [← ih (by omega) (by omega) fun k h1 h2 => h k h1 (by omega)]
      by_contra hne
      obtain ⟨n, h1, h2⟩ := W.change j (by omega) q hne
      exact h j (by omega) (by omega) n h1 h2
    · rw [Nat.le_antisymm hij hge]

/-- at a point at which no job that may write the place is executing, the place holds what the last
of these jobs left -/
theorem Workspace.last {out : Node → JobOut} {tr : List Event} {cont : Nat → K → V}
    (W : Workspace A J out tr cont) (o : Orderly g tr) (hA : A.RaceFree g) {q : K} {p : Nat}
    (hp : p ≤ tr.length)
    (hq : ∀ m i, A.writes m q → i < p → BeginsAt tr m i →
      ∃ e, i < e ∧ e < p ∧ tr[e]? = some (.jobEnd m)) :
    ((∀ m, ¬ WroteBefore A tr p q m) ∧ cont p q = cont 0 q) ∨
    ∃ m i, i < p ∧ A.writes m q ∧ BeginsAt tr m i ∧ cont p q = J.effect m (cont i) q ∧
      ∀ m', WroteBefore A tr p q m' → m' ≠ m → Relation.TransGen (AfterEdge g) m m' := by
  classical
  by_cases hne : ∃ m, WroteBefore A tr p q m
  · right
    -- the last one to begin
    have hlast : ∃ i, i < p ∧ (∃ m, A.writes m q ∧ BeginsAt tr m i) ∧
        ∀ j, j < p → (∃ m, A.writes m q ∧ BeginsAt tr m j) → j ≤ i := by
      clear hq hp
      induction p with
      | zero => obtain ⟨m, _, i, hi, _⟩ := hne; omega
      | succ p ih =>
        by_cases hc : ∃ m, A.writes m q ∧ BeginsAt tr m p
        · exact ⟨p, by omega, hc, fun j hj _ => by omega⟩
        · obtain ⟨m, hm, i, hi, hb⟩ := hne
          have hip : i < p := by
            rcases Nat.lt_or_ge i p with h | h
            · exact h
            · exact absurd ⟨m, hm, (show i = p by omega) ▸ hb⟩ hc
          obtain ⟨i', h1, h2, h3⟩ := ih ⟨m, hm, i, hip, hb⟩
          refine ⟨i', by omega, h2, fun j hj hjm => ?_⟩
          rcases Nat.lt_or_ge j p with h | h
          · exact h3 j h hjm
          · exact absurd ((show j = p by omega) ▸ hjm) hc
    obtain ⟨i, hip, ⟨m, hm, hb⟩, hmax⟩ := hlast
    have hord : ∀ m', WroteBefore A tr p q m' → m' ≠ m → Relation.TransGen (AfterEdge g) m m' := by
      rintro m' ⟨hm', j, hj, hb'⟩ hne'
      rcases hA m (o.node hb) m' (o.node hb') (Ne.symm hne') q (.inr hm) hm' with h | h
      · exact h
      · obtain ⟨e, h1, h2, _⟩ := o.order h hb hb'
        have := hmax j hj ⟨m', hm', hb'⟩
        omega
    obtain ⟨e, hie, hep, he⟩ := hq m i hm hip hb
    obtain ⟨b, hb1⟩ := hb
    have hres := (W.result e i m b hb1 he).2 q hm
    refine ⟨m, i, hip, hm, ⟨b, hb1⟩, ?_, hord⟩
    rw [← hres]
    refine W.stays (by omega) hp fun k h1 h2 m' hr hm' => ?_
    obtain ⟨j, hjk, hb'⟩ := running_begins hr
    by_cases hmm : m' = m
    · subst hmm
      have := (running_index o hr hb').2 e he
      omega
    · obtain ⟨e', h3, h4, h5⟩ := o.order (hord m' ⟨hm', j, by omega, hb'⟩ hmm) hb' ⟨b, hb1⟩
      have h6 := (running_index o hr hb').2 e' h5
      omega
  · left
    have hnone : ∀ m, ¬ WroteBefore A tr p q m := fun m hm => hne ⟨m, hm⟩
    refine ⟨hnone, W.stays (Nat.zero_le _) hp fun k _ h2 n hr hw => ?_⟩
    obtain ⟨i, hi, hb⟩ := running_begins hr
    exact hnone n ⟨hw, i, by omega, hb⟩

/-- the same jobs wrote, starting from the same: the place holds the same -/
theorem Workspace.same {out1 out2 : Node → JobOut} {tr1 tr2 : List Event}
    {cont1 cont2 : Nat → K → V} (W1 : Workspace A J out1 tr1 cont1)
    (W2 : Workspace A J out2 tr2 cont2) (o1 : Orderly g tr1) (o2 : Orderly g tr2)
    (hA : A.RaceFree g) (hJ : J.Within A) {q : K} {p1 p2 : Nat} (hp1 : p1 ≤ tr1.length)
    (hp2 : p2 ≤ tr2.length)
    (hq1 : ∀ m i, A.writes m q → i < p1 → BeginsAt tr1 m i →
      ∃ e, i < e ∧ e < p1 ∧ tr1[e]? = some (.jobEnd m))
    (hq2 : ∀ m i, A.writes m q → i < p2 → BeginsAt tr2 m i →
      ∃ e, i < e ∧ e < p2 ∧ tr2[e]? = some (.jobEnd m))
    (h0 : cont1 0 q = cont2 0 q)
    (hw : ∀ m, WroteBefore A tr1 p1 q m ↔ WroteBefore A tr2 p2 q m)
    (hc : ∀ m, WroteBefore A tr1 p1 q m → ∀ i j, BeginsAt tr1 m i → BeginsAt tr2 m j →
      ∀ x, A.Touches m x → cont1 i x = cont2 j x) :
    cont1 p1 q = cont2 p2 q := by
  rcases W1.last o1 hA hp1 hq1 with ⟨h1, e1⟩ | ⟨m1, i1, l1, w1, b1, e1, u1⟩ <;>
    rcases W2.last o2 hA hp2 hq2 with ⟨h2, e2⟩ | ⟨m2, i2, l2, w2, b2, e2, u2⟩
  · rw [e1, e2, h0]
  · exact absurd ((hw m2).2 ⟨w2, i2, l2, b2⟩) (h1 m2)
  · exact absurd ((hw m1).1 ⟨w1, i1, l1, b1⟩) (h2 m1)
  · by_cases hm : m1 = m2
    · subst hm
      rw [e1, e2]
      exact hJ.effect m1 _ _ (hc m1 ⟨w1, i1, l1, b1⟩ i1 i2 b1 b2) q w1
    · have t1 := u1 m2 ((hw m2).2 ⟨w2, i2, l2, b2⟩) (Ne.symm hm)
      have t2 := u2 m1 ((hw m1).1 ⟨w1, i1, l1, b1⟩) hm
      exact absurd (t1.trans t2) (o1.irrefl b1)

end

/-- being out of date depends on what the tasks of the dag say -/
theorem stale_congr {g : Dag} (hwf : g.WF) {ask1 ask2 : Node → InvalOut}
    (h : ∀ n ∈ g.nodes, ask2 n = ask1 n) {n : Node} (hn : n ∈ g.nodes) :
    Stale g ask1 n ↔ Stale g ask2 n := by
  have key : ∀ m, Relation.ReflTransGen (HasEdge g .invalidatedBy) n m → m ∈ g.nodes := by
    intro m hm
    induction hm with
    | refl => exact hn
    | tail _ hc _ => exact (hwf.closed _ hc).2
  constructor
  · rintro ⟨m, hm, log, hl⟩
    exact ⟨m, hm, log, by rw [h m (key m hm)]; exact hl⟩
  · rintro ⟨m, hm, log, hl⟩
    exact ⟨m, hm, log, by rw [← h m (key m hm)]; exact hl⟩

/-- the records agree -/
def SameResult (r1 r2 : RunRecord) : Prop :=
  r1.status = r2.status ∧ r1.retcode = r2.retcode ∧ r1.output = r2.output

/-- **C123**.  Two executions of a dag in which tasks that touch the same place are ordered, with any
numbers of threads and any schedules: if the places hold the same in the beginning, and the tasks say
the same about being out of date, then the places hold the same in the end, and every task has the
same status, return code and output.  (That the jobs end the same way is not assumed but follows.) -/
theorem C123_same {K V : Type} (A : Footprint K) (J : Commands K V) (C1 C2 : Cfg)
    (hwf : C1.dag.WF) (hdag : C2.dag = C1.dag) (hask : ∀ n ∈ C1.dag.nodes, C2.ask n = C1.ask n)
    (hra : ∀ a b, HasEdge C1.dag .requires a b → AfterEdge C1.dag a b)
    (hA : A.RaceFree C1.dag) (hJ : J.Within A) (ms1 ms2 : List Move)
    (hf1 : (exec C1 ms1).phase = .finished) (hf2 : (exec C2 ms2).phase = .finished)
    (cont1 cont2 : Nat → K → V)
    (W1 : Workspace A J C1.outcome (exec C1 ms1).trace cont1)
    (W2 : Workspace A J C2.outcome (exec C2 ms2).trace cont2)
    (h0 : ∀ q, cont1 0 q = cont2 0 q) :
    (∀ q, cont1 (exec C1 ms1).trace.length q = cont2 (exec C2 ms2).trace.length q) ∧
    (∀ n, JobBegan (exec C1 ms1).trace n ↔ JobBegan (exec C2 ms2).trace n) ∧
    ∀ r1 ∈ (exec C1 ms1).erec.runs, ∀ r2 ∈ (exec C2 ms2).erec.runs, r2.node = r1.node →
      SameResult r1 r2 := by
  classical
  have hwf2 : C2.dag.WF := hdag ▸ hwf
  obtain ⟨hI1, hT1⟩ := both_exec hwf ms1
  obtain ⟨hI2, hT2⟩ := both_exec hwf2 ms2
  have o1 := orderly_finished hwf ms1 hf1
  have o2 := orderly_finished hwf2 ms2 hf2
  rw [hdag] at o2
  have hperm1 := (C02_one_record C1 hwf ms1 hf1).1
  have hperm2 := (C02_one_record C2 hwf2 ms2 hf2).1
  rw [hdag] at hperm2
  have hac : ¬ ∃ n, Relation.TransGen (AfterEdge C1.dag) n n :=
    hI1.acyc (by rw [hf1]; rfl)
  set tr1 := (exec C1 ms1).trace with htr1
  set tr2 := (exec C2 ms2).trace with htr2
  -- what is to be shown about one task
  let Good : Node → Prop := fun n =>
    (JobBegan tr1 n ↔ JobBegan tr2 n) ∧
    (∀ i j, BeginsAt tr1 n i → BeginsAt tr2 n j → ∀ q, A.Touches n q → cont1 i q = cont2 j q) ∧
    ∀ r1 ∈ (exec C1 ms1).erec.runs, ∀ r2 ∈ (exec C2 ms2).erec.runs, r1.node = n → r2.node = n →
      SameResult r1 r2
  have hstep : ∀ n ∈ C1.dag.nodes,
      (∀ m ∈ C1.dag.nodes, Relation.TransGen (AfterEdge C1.dag) n m → Good m) → Good n := by
    intro n hn ih
    obtain ⟨r1, hr1, hn1⟩ := List.mem_map.1 (hperm1.mem_iff.2 hn)
    obtain ⟨r2, hr2, hn2⟩ := List.mem_map.1 (hperm2.mem_iff.2 hn)
    have hu1 : ∀ r ∈ (exec C1 ms1).erec.runs, r.node = n → r = r1 := fun r hr hrn =>
      List.inj_on_of_nodup_map (hperm1.nodup_iff.2 hwf.nodup) hr hr1 (hrn.trans hn1.symm)
    have hu2 : ∀ r ∈ (exec C2 ms2).erec.runs, r.node = n → r = r2 := fun r hr hrn =>
      List.inj_on_of_nodup_map (hperm2.nodup_iff.2 hwf.nodup) hr hr2 (hrn.trans hn2.symm)
    have hm1 : r1 ∈ recsOf (exec C1 ms1).trace := by rw [hT1.recs]; exact hr1
    have hm2 : r2 ∈ recsOf (exec C2 ms2).trace := by rw [hT2.recs]; exact hr2
    obtain ⟨d1, d2, d3, d4⟩ := status_determined hwf ms1 (fun b => hra _ b) hm1
    obtain ⟨e1, e2, e3, e4⟩ := status_determined hwf2 ms2
      (fun b => by rw [hdag]; exact hra _ b) hm2
    rw [hdag, hn2] at e1 e3 e4
    rw [← stale_congr hwf hask hn] at e3 e4
    rw [hn1] at d1 d3 d4
    rw [hT1.recs] at d1
    rw [hT2.recs] at e1
    have b1 := (began_of_status hT1 hr1).1
    have b2 := (began_of_status hT2 hr2).1
    rw [hn1] at b1
    rw [hn2] at b2
    have hdep : r1.status = .depf ↔ r2.status = .depf := by
      rw [d1, e1]
      constructor
      · rintro ⟨p, hp, hreq, hbad⟩
        have hpn : p.node ∈ C1.dag.nodes := hperm1.mem_iff.1 (List.mem_map_of_mem hp)
        obtain ⟨p2, hp2, hpe⟩ := List.mem_map.1 (hperm2.mem_iff.2 hpn)
        have := ((ih p.node hpn (.single (hra _ _ hreq))).2.2 p hp p2 hp2 rfl hpe).1
        exact ⟨p2, hp2, by rw [hpe]; exact hreq, by unfold Bad at hbad ⊢; rw [← this]; exact hbad⟩
      · rintro ⟨p, hp, hreq, hbad⟩
        have hpn : p.node ∈ C1.dag.nodes := hperm2.mem_iff.1 (List.mem_map_of_mem hp)
        obtain ⟨p1, hp1, hpe⟩ := List.mem_map.1 (hperm1.mem_iff.2 hpn)
        have := ((ih p.node hpn (.single (hra _ _ hreq))).2.2 p1 hp1 p hp hpe rfl).1
        exact ⟨p1, hp1, by rw [hpe]; exact hreq, by unfold Bad at hbad ⊢; rw [this]; exact hbad⟩
    -- what a job finds when it begins
    have hfind : ∀ i j, BeginsAt tr1 n i → BeginsAt tr2 n j →
        ∀ q, A.Touches n q → cont1 i q = cont2 j q := by
      intro i j hi hj q hq
      have key : ∀ {tr : List Event}, Orderly C1.dag tr → ∀ {i}, BeginsAt tr n i →
          ∀ m k, A.writes m q → BeginsAt tr m k → k < i → m ∈ C1.dag.nodes ∧
            Relation.TransGen (AfterEdge C1.dag) n m := by
        intro tr o i hi m k hm hk hki
        have hmn := o.node hk
        refine ⟨hmn, ?_⟩
        have hne : n ≠ m := by
          rintro rfl
          have := o.once hi hk
          omega
        rcases hA n hn m hmn hne q hq hm with h | h
        · exact h
        · obtain ⟨e, h1, h2, _⟩ := o.order h hi hk
          omega
      have len : ∀ {tr : List Event} {i}, BeginsAt tr n i → i ≤ tr.length := by
        rintro tr i ⟨b, hb⟩
        exact Nat.le_of_lt (List.getElem?_eq_some_iff.1 hb).1
      refine W1.same W2 o1 o2 hA hJ (len hi) (len hj) ?_ ?_ (h0 q) ?_ ?_
      · intro m k hm hk hb
        exact o1.order (key o1 hi m k hm hb hk).2 hb hi
      · intro m k hm hk hb
        exact o2.order (key o2 hj m k hm hb hk).2 hb hj
      · intro m
        constructor
        · rintro ⟨hm, k, hk, hb⟩
          obtain ⟨h1, h2⟩ := key o1 hi m k hm hb hk
          obtain ⟨k2, hb2⟩ := began_beginsAt ((ih m h1 h2).1.1 (beginsAt_began hb))
          obtain ⟨e, h3, h4, _⟩ := o2.order h2 hb2 hj
          exact ⟨hm, k2, by omega, hb2⟩
        · rintro ⟨hm, k, hk, hb⟩
          obtain ⟨h1, h2⟩ := key o2 hj m k hm hb hk
          obtain ⟨k2, hb2⟩ := began_beginsAt ((ih m h1 h2).1.2 (beginsAt_began hb))
          obtain ⟨e, h3, h4, _⟩ := o1.order h2 hb2 hi
          exact ⟨hm, k2, by omega, hb2⟩
      · rintro m ⟨hm, k, hk, hb⟩
        obtain ⟨h1, h2⟩ := key o1 hi m k hm hb hk
        exact (ih m h1 h2).2.1
    have hres : SameResult r1 r2 := by
      by_cases hd : r1.status = .depf
      · have hd' := hdep.1 hd
        obtain ⟨a, b⟩ := d2 hd
        obtain ⟨a', b'⟩ := e2 hd'
        exact ⟨hd.trans hd'.symm, a.trans a'.symm, b.trans b'.symm⟩
      · have hd' : r2.status ≠ .depf := fun h => hd (hdep.2 h)
        by_cases hst : Stale C1.dag C1.ask n
        · obtain ⟨a, b, c⟩ := d4 hd hst
          obtain ⟨a', b', c'⟩ := e4 hd' hst
          have hb1 : JobBegan tr1 n := b1.2 (by rw [c]; split <;> simp)
          have hb2 : JobBegan tr2 n := b2.2 (by rw [c']; split <;> simp)
          obtain ⟨i, hi⟩ := began_beginsAt hb1
          obtain ⟨j, hj⟩ := began_beginsAt hb2
          obtain ⟨ei, _, hei⟩ := o1.ends hi
          obtain ⟨ej, _, hej⟩ := o2.ends hj
          have hfound := hfind i j hi hj
          obtain ⟨x, hx⟩ := hi
          obtain ⟨y, hy⟩ := hj
          have hout : C1.outcome n = C2.outcome n := by
            rw [(W1.result ei i n x hx hei).1, (W2.result ej j n y hy hej).1]
            exact hJ.outcome n _ _ hfound
          rw [hout] at a b
          have hrc : r1.retcode = r2.retcode := by rw [a] at a'; injection a'
          exact ⟨by rw [c, c', hrc], hrc, b.trans b'.symm⟩
        · obtain ⟨a, b, c⟩ := d3 hd hst
          obtain ⟨a', b', c'⟩ := e3 hd' hst
          exact ⟨a.trans a'.symm, b.trans b'.symm, c.trans c'.symm⟩
    refine ⟨by rw [b1, b2, hres.1], hfind, fun p hp p' hp' h h' => ?_⟩
    rw [hu1 p hp h, hu2 p' hp' h']
    exact hres
  have hgood : ∀ n ∈ C1.dag.nodes, Good n := by
    by_contra hcon
    push Not at hcon
    obtain ⟨n, hn, hbad⟩ := hcon
    have hne : (C1.dag.nodes.filter fun n => ¬ Good n) ≠ [] := by
      intro h
      have : n ∈ C1.dag.nodes.filter fun n => ¬ Good n := by simp [hn, hbad]
      rw [h] at this; cases this
    obtain ⟨c, hc, hmin⟩ := exists_minimal (R := Relation.TransGen (AfterEdge C1.dag))
      (by rw [Relation.transGen_eq_self]; exact hac) _ _ (Nat.le_refl _) hne
    simp only [List.mem_filter, decide_eq_true_eq] at hc hmin
    refine hc.2 (hstep c hc.1 fun m hm hcm => ?_)
    by_contra hbm
    exact hmin m ⟨hm, hbm⟩ hcm
  have hbegan : ∀ n, JobBegan tr1 n ↔ JobBegan tr2 n := by
    intro n
    by_cases hn : n ∈ C1.dag.nodes
    · exact (hgood n hn).1
    · refine iff_of_false (fun h => hn ?_) fun h => hn ?_
      · obtain ⟨i, hi⟩ := began_beginsAt h
        exact o1.node hi
      · obtain ⟨i, hi⟩ := began_beginsAt h
        exact o2.node hi
  refine ⟨fun q => ?_, hbegan, fun r1 hr1 r2 hr2 h => ?_⟩
  · have lt : ∀ {tr : List Event} {n i}, BeginsAt tr n i → i < tr.length := by
      rintro tr n i ⟨b, hb⟩
      exact (List.getElem?_eq_some_iff.1 hb).1
    refine W1.same W2 o1 o2 hA hJ (Nat.le_refl _) (Nat.le_refl _) ?_ ?_ (h0 q) ?_ ?_
    · intro m k _ _ hb
      obtain ⟨e, h1, h2⟩ := o1.ends hb
      exact ⟨e, h1, (List.getElem?_eq_some_iff.1 h2).1, h2⟩
    · intro m k _ _ hb
      obtain ⟨e, h1, h2⟩ := o2.ends hb
      exact ⟨e, h1, (List.getElem?_eq_some_iff.1 h2).1, h2⟩
    · intro m
      constructor
      · rintro ⟨hm, k, _, hb⟩
        obtain ⟨j, hj⟩ := began_beginsAt ((hbegan m).1 (beginsAt_began hb))
        exact ⟨hm, j, lt hj, hj⟩
      · rintro ⟨hm, k, _, hb⟩
        obtain ⟨j, hj⟩ := began_beginsAt ((hbegan m).2 (beginsAt_began hb))
        exact ⟨hm, j, lt hj, hj⟩
    · rintro m ⟨_, k, _, hb⟩
      exact (hgood m (o1.node hb)).2.1
  · exact (hgood r1.node (hperm1.mem_iff.1 (List.mem_map_of_mem hr1))).2.2 r1 hr1 r2 hr2 rfl h

end Joque
