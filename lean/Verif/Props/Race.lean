import Verif.Spec.Race
import Verif.Props.Sync2
import Verif.Props.Exec5
import Verif.Props.Outcome

/-! # No data races (C85) -/

namespace Joque

/-- the order of the events of a node -/
def Tag.rank : Tag → Nat
  | .before => 0
  | .launch => 1
  | .begin _ => 2
  | .end => 3
  | .log => 4
  | .after => 5

theorem hb_lt {tr : List Event} {i j : Nat} (h : HappensBefore tr i j) : i < j := by
  induction h with
  | single h => cases h <;> assumption
  | tail _ h ih => cases h <;> omega

variable {C : Cfg}

/-- the events of a node come in the order of their ranks -/
theorem tag_order (hwf : C.dag.WF) (ms : List Move) {i j : Nat} {n : Node} {e f : Event}
    {x y : Tag} (hi : (exec C ms).trace[i]? = some e) (hj : (exec C ms).trace[j]? = some f)
    (hx : tagOf n e = some x) (hy : tagOf n f = some y) (hij : i < j) : x.rank < y.rank := by
  obtain ⟨hI, hT⟩ := both_exec hwf ms
  have hpw : (life n (exec C ms).trace).Pairwise (fun a b => a.rank < b.rank) := by
    rcases life_shape hI hT n with h | ⟨_, h⟩ | ⟨_, h⟩ <;>
      exact List.Pairwise.sublist h.sublist (by decide)
  obtain ⟨pre, post, h1, h2⟩ := split_get hj
  have hmem : x ∈ life n pre := by
    rw [h1, List.getElem?_append_left (by omega)] at hi
    exact List.mem_filterMap.2 ⟨_, List.mem_of_getElem? hi, hx⟩
  rw [h1, life_append] at hpw
  refine (List.pairwise_append.1 hpw).2.2 x hmem y ?_
  simp [life, hy]

theorem tag_lt (hwf : C.dag.WF) (ms : List Move) {i j : Nat} {n : Node} {e f : Event}
    {x y : Tag} (hi : (exec C ms).trace[i]? = some e) (hj : (exec C ms).trace[j]? = some f)
    (hx : tagOf n e = some x) (hy : tagOf n f = some y) (hr : x.rank < y.rank) : i < j := by
  rcases Nat.lt_trichotomy i j with h | h | h
  · exact h
  · subst h
    rw [hi] at hj; cases hj
    rw [hx] at hy; cases hy
    omega
  · have := tag_order hwf ms hj hi hy hx h
    omega

theorem tag_unique (hwf : C.dag.WF) (ms : List Move) {i j : Nat} {n : Node} {e f : Event}
    {x y : Tag} (hi : (exec C ms).trace[i]? = some e) (hj : (exec C ms).trace[j]? = some f)
    (hx : tagOf n e = some x) (hy : tagOf n f = some y) (hr : x.rank = y.rank) : i = j := by
  rcases Nat.lt_trichotomy i j with h | h | h
  · have := tag_order hwf ms hi hj hx hy h
    omega
  · exact h
  · have := tag_order hwf ms hj hi hy hx h
    omega

/-- all jobs are asked before anything happens to a node -/
theorem inval_first (hwf : C.dag.WF) (ms : List Move) {i j : Nat} {n m : Node} {a : Inval}
    {l : Str} {f : Event} {x : Tag} (hi : (exec C ms).trace[i]? = some (.jobInval n a l))
    (hj : (exec C ms).trace[j]? = some f) (hx : tagOf m f = some x) : i < j := by
  rcases C15_prologue C hwf ms with h | ⟨asked, mid, rest, h, _, _, hmid, hrest, _⟩
  · rw [h] at hi; simp at hi
  · generalize hP : Event.resumed :: C.dag.nodes.map Event.nodeEnque ++
        asked.map (fun p =>
          Event.jobInval p.1 (if p.2.invalidated then .invalid else .valid) p.2.log) ++ mid = P at h
    have hPt : f ∉ P := by
      rw [← hP]
      simp only [List.mem_append, List.mem_cons, List.mem_map]
      rintro (((rfl | ⟨k, _, rfl⟩) | ⟨k, _, rfl⟩) | hm)
      · simp [tagOf] at hx
      · simp [tagOf] at hx
      · simp [tagOf] at hx
      · rcases hmid f hm with ⟨c, rfl⟩ | ⟨k, k', rfl⟩ <;> simp [tagOf] at hx
    have hjP : P.length ≤ j ∧ (exec C ms).trace = P ++ rest := by
      rcases h with h | ⟨_, _, h⟩
      · refine ⟨?_, h⟩
        by_contra hlt
        rw [h, List.getElem?_append_left (by omega)] at hj
        exact hPt (List.mem_of_getElem? hj)
      · exact absurd (h.subset (List.mem_of_getElem? hj)) hPt
    have hiP : i < P.length := by
      by_contra hge
      rw [hjP.2, List.getElem?_append_right (by omega)] at hi
      exact (hrest _ (List.mem_of_getElem? hi)).2.2.1 n a l rfl
    omega

/-- an ended job began before -/
theorem begin_before (hwf : C.dag.WF) (ms : List Move) {j : Nat} {n : Node}
    (hj : (exec C ms).trace[j]? = some (.jobEnd n)) :
    ∃ i b, i < j ∧ (exec C ms).trace[i]? = some (.jobBegin n b) ∧
      (b = true ↔ C.threadCount = 0) := by
  obtain ⟨hI, hT⟩ := both_exec hwf ms
  have hend : Tag.end ∈ life n (exec C ms).trace :=
    List.mem_filterMap.2 ⟨_, List.mem_of_getElem? hj, by simp [tagOf]⟩
  have hb : ∃ b, Tag.begin b ∈ life n (exec C ms).trace := by
    have key : ∀ full : List Tag, ∀ b, life n (exec C ms).trace <+: full →
        (∀ k : Nat, full[k]? = some Tag.end → ∃ k' : Nat, k' < k ∧ full[k']? = some (Tag.begin b)) →
        ∃ b, Tag.begin b ∈ life n (exec C ms).trace := by
      intro full b hp hf
      obtain ⟨k, hk⟩ := List.getElem?_of_mem hend
      have hlen := (List.getElem?_eq_some_iff.1 hk).1
      obtain ⟨t, rfl⟩ := hp
      obtain ⟨k', hlt, hk'⟩ := hf k (by rw [List.getElem?_append_left hlen]; exact hk)
      rw [List.getElem?_append_left (by omega)] at hk'
      exact ⟨b, List.mem_of_getElem? hk'⟩
    rcases life_shape hI hT n with h | ⟨_, h⟩ | ⟨_, h⟩
    · have : Tag.end ∈ [Tag.before, .after] := h.subset hend
      simp at this
    · refine key _ false h (fun k hk => ⟨2, ?_, rfl⟩)
      rcases k with _ | _ | _ | _ | k <;> simp at hk ⊢
    · refine key _ true h (fun k hk => ⟨1, ?_, rfl⟩)
      rcases k with _ | _ | _ | k <;> simp at hk ⊢
  obtain ⟨b, hb⟩ := begin_mem_life.2 hb
  obtain ⟨i, hi⟩ := List.getElem?_of_mem hb
  obtain ⟨p, q, h1, _⟩ := split_get hi
  exact ⟨i, b, tag_lt hwf ms hi hj (n := n) (x := .begin b) (y := .end) (by simp [tagOf])
    (by simp [tagOf]) (by simp [Tag.rank]), hi, (hT.always p _ q h1).2.1⟩

theorem begin_control (hwf : C.dag.WF) (ms : List Move) {i : Nat} {n : Node} {b : Bool}
    (hi : (exec C ms).trace[i]? = some (.jobBegin n b)) : b = true ↔ C.threadCount = 0 := by
  obtain ⟨p, q, h1, _⟩ := split_get hi
  exact ((both_exec hwf ms).2.always p _ q h1).2.1

/-- everything is on the control thread, or the event is the start or the end of a job -/
theorem control_or (hwf : C.dag.WF) (ms : List Move) {i : Nat} {e : Event}
    (hi : (exec C ms).trace[i]? = some e) :
    OnControl (exec C ms).trace e ∨
      (C.threadCount ≠ 0 ∧ ((∃ n, e = .jobBegin n false) ∨ ∃ n, e = .jobEnd n)) := by
  cases e <;> (try exact .inl trivial)
  · rename_i n b
    have := begin_control hwf ms hi
    cases b
    · exact .inr ⟨by simpa using this, .inl ⟨n, rfl⟩⟩
    · exact .inl rfl
  · rename_i n
    obtain ⟨k, b, _, hk, hb⟩ := begin_before hwf ms hi
    by_cases h0 : C.threadCount = 0
    · left
      have : b = true := hb.2 h0
      subst this
      exact List.mem_of_getElem? hk
    · exact .inr ⟨h0, .inr ⟨n, rfl⟩⟩

/-- what a worker thread accesses -/
theorem worker_accesses {g : Dag} {n : Node} {e : Event} {a : Access}
    (he : e = .jobBegin n false ∨ e = .jobEnd n) (ha : a ∈ accesses g e) :
    a = (Loc.ref n).read ∨ a = (Loc.task (g.task n)).read ∨ a = (Loc.job (g.task n)).wr ∨
      (a = (Loc.result n).wr ∧ e = .jobEnd n) := by
  rcases he with rfl | rfl
  · simp [accesses] at ha
    rcases ha with h | h | h <;> simp [h]
  · simp [accesses] at ha
    rcases ha with h | h | h | h <;> simp [h]

/-- who writes a reference, a task, a job or a result -/
theorem write_cases {g : Dag} {f : Event} {b : Access} (hb : b ∈ accesses g f) :
    (∀ n, b.loc = .ref n → b.write = false) ∧ (∀ t, b.loc = .task t → b.write = false) ∧
    (∀ t, b.loc = .job t → ∃ m, g.task m = t ∧
      ((∃ i l, f = .jobInval m i l) ∨ (∃ x, f = .jobBegin m x) ∨ f = .jobEnd m)) ∧
    (∀ n, b.loc = .result n → f = .launch n ∨ (∃ l, f = .runLog n l) ∨ f = .jobEnd n) := by
  have base : ∀ b : Access, (b = Loc.engine.wr ∨ ∃ n ∈ g.nodes, b = (Loc.ref n).read ∨
      b = (Loc.task (g.task n)).read ∨ b = (Loc.marks n).wr) →
      (∀ n, b.loc = .ref n → b.write = false) ∧ (∀ t, b.loc = .task t → b.write = false) ∧
      (∀ t, b.loc ≠ .job t) ∧ (∀ n, b.loc ≠ .result n) := by
    rintro b (rfl | ⟨n, _, rfl | rfl | rfl⟩) <;>
      simp [Loc.wr, Loc.read]
  have use : ∀ b : Access, (b = Loc.engine.wr ∨ ∃ n ∈ g.nodes, b = (Loc.ref n).read ∨
      b = (Loc.task (g.task n)).read ∨ b = (Loc.marks n).wr) →
      (∀ n, b.loc = .ref n → b.write = false) ∧ (∀ t, b.loc = .task t → b.write = false) ∧
      (∀ t, b.loc = .job t → ∃ m, g.task m = t ∧
        ((∃ i l, f = .jobInval m i l) ∨ (∃ x, f = .jobBegin m x) ∨ f = .jobEnd m)) ∧
      (∀ n, b.loc = .result n → f = .launch n ∨ (∃ l, f = .runLog n l) ∨ f = .jobEnd n) := by
    intro b h
    obtain ⟨h1, h2, h3, h4⟩ := base b h
    exact ⟨h1, h2, fun t ht => absurd ht (h3 t), fun n hn => absurd hn (h4 n)⟩
  cases f
  case jobBegin n x =>
    cases x <;> simp [accesses] at hb
    · rcases hb with rfl | rfl | rfl <;> simp [Loc.wr, Loc.read]
    · rcases hb with rfl | rfl | rfl | rfl <;> simp [Loc.wr, Loc.read]
  case jobEnd n =>
    simp [accesses] at hb
    rcases hb with rfl | rfl | rfl | rfl <;> simp [Loc.wr, Loc.read]
  case jobInval n i l =>
    simp [accesses] at hb
    rcases hb with h | h | rfl
    · exact use b (.inl h)
    · exact use b (.inr h)
    · simp [Loc.wr]
  case launch n =>
    simp [accesses] at hb
    rcases hb with h | h | rfl
    · exact use b (.inl h)
    · exact use b (.inr h)
    · simp [Loc.wr]
  case runLog n l =>
    simp [accesses] at hb
    rcases hb with h | h | rfl
    · exact use b (.inl h)
    · exact use b (.inr h)
    · simp [Loc.wr]
  all_goals
    simp [accesses] at hb
    exact use b hb

/-- Two nodes with the same task are the same node, or are ordered, or share a resource (a task with
a resource shares it with itself). -/
def OneAtATime (C : Cfg) : Prop :=
  ∀ a ∈ C.dag.nodes, ∀ b ∈ C.dag.nodes, a ≠ b → C.dag.task a = C.dag.task b →
    (∃ r ∈ C.resources a, r ∈ C.resources b) ∨ Relation.TransGen (AfterEdge C.dag) a b ∨
      Relation.TransGen (AfterEdge C.dag) b a

/-- of two such nodes whose jobs begin, one job ends before the other begins -/
theorem one_at_a_time (hwf : C.dag.WF) (hone : OneAtATime C) (ms : List Move) {i j : Nat}
    {A B : Node} {a b : Bool} (hA : A ∈ C.dag.nodes) (hB : B ∈ C.dag.nodes) (hne : A ≠ B)
    (ht : C.dag.task A = C.dag.task B)
    (hi : (exec C ms).trace[i]? = some (.jobBegin B b))
    (hj : (exec C ms).trace[j]? = some (.jobBegin A a)) (hij : i < j) :
    ∃ k, (exec C ms).trace[k]? = some (.jobEnd B) ∧ HappensBefore (exec C ms).trace i k ∧
      HappensBefore (exec C ms).trace k j := by
  rcases hone A hA B hB hne ht with ⟨r, hr1, hr2⟩ | h | h
  · exact C63_resource C hwf ms A B a b i j hne r hr1 hr2 hi hj hij
  · exact C63_transitive C hwf ms A B a b i j h hi hj
  · obtain ⟨k, _, h1, h2⟩ := C63_transitive C hwf ms B A b a j i h hj hi
    have h3 := hb_lt h1
    have h4 := hb_lt h2
    omega

theorem began_node (hwf : C.dag.WF) (ms : List Move) {i : Nat} {n : Node} {b : Bool}
    (hi : (exec C ms).trace[i]? = some (.jobBegin n b)) : n ∈ C.dag.nodes := by
  obtain ⟨hI, hT⟩ := both_exec hwf ms
  have hbeg : ∃ b, Tag.begin b ∈ life n (exec C ms).trace :=
    begin_mem_life.1 ⟨b, List.mem_of_getElem? hi⟩
  have hbef : Tag.before ∈ life n (exec C ms).trace := by
    have key : ∀ full : List Tag, life n (exec C ms).trace <+: Tag.before :: full →
        Tag.before ∈ life n (exec C ms).trace := by
      rintro full ⟨t, ht⟩
      obtain ⟨b, hb⟩ := hbeg
      cases hl : life n (exec C ms).trace with
      | nil => rw [hl] at hb; cases hb
      | cons x l => rw [hl] at ht; simp at ht; simp [ht.1]
    rcases life_shape hI hT n with h | ⟨_, h⟩ | ⟨_, h⟩ <;> exact key _ h
  obtain ⟨e, he, hx⟩ := List.mem_filterMap.1 hbef
  obtain ⟨p, q, hpq⟩ := List.append_of_mem he
  have hg := hT.always p e q hpq
  cases e <;> simp [tagOf] at hx
  subst hx
  exact hg.2.1

/-- start or end of the job of `n`, and the position of its start -/
theorem job_event (hwf : C.dag.WF) (ms : List Move) {i : Nat} {n : Node} {e : Event}
    (hi : (exec C ms).trace[i]? = some e) (he : (∃ x, e = .jobBegin n x) ∨ e = .jobEnd n) :
    ∃ k b, (exec C ms).trace[k]? = some (.jobBegin n b) ∧ (b = true ↔ C.threadCount = 0) ∧
      (k = i ∨ (k < i ∧ e = .jobEnd n ∧ HappensBefore (exec C ms).trace k i)) := by
  rcases he with ⟨x, rfl⟩ | rfl
  · exact ⟨i, x, hi, begin_control hwf ms hi, .inl rfl⟩
  · obtain ⟨k, b, h1, h2, h3⟩ := begin_before hwf ms hi
    exact ⟨k, b, h2, h3, .inr ⟨h1, rfl, .single (.job n b h2 hi h1)⟩⟩

/-- two calls into one job object are ordered -/
theorem job_job (hwf : C.dag.WF) (hone : OneAtATime C) (ms : List Move) {i j : Nat} {n m : Node}
    {e f : Event} (hi : (exec C ms).trace[i]? = some e) (hj : (exec C ms).trace[j]? = some f)
    (hij : i < j) (ht : C.dag.task n = C.dag.task m)
    (he : (∃ x, e = .jobBegin n x) ∨ e = .jobEnd n)
    (hf : (∃ x, f = .jobBegin m x) ∨ f = .jobEnd m) :
    HappensBefore (exec C ms).trace i j := by
  obtain ⟨k, b, hk, hb, hki⟩ := job_event hwf ms hi he
  obtain ⟨l, c, hl, hc, hlj⟩ := job_event hwf ms hj hf
  have hend : ∀ {p : Nat} {x : Node}, (exec C ms).trace[p]? = some (.jobEnd x) →
      ∀ {q : Nat}, (exec C ms).trace[q]? = some (.jobEnd x) → p = q := by
    intro p x hp q hq
    exact tag_unique hwf ms hp hq (n := x) (x := .end) (y := .end) (by simp [tagOf])
      (by simp [tagOf]) rfl
  by_cases hnm : n = m
  · subst hnm
    have hkl := begin_unique hwf ms hk hl
    subst hkl
    rcases hki with rfl | ⟨h1, rfl, _⟩
    · rcases hlj with rfl | ⟨_, _, h⟩
      · omega
      · exact h
    · rcases hlj with rfl | ⟨_, rfl, _⟩
      · omega
      · have := hend hi hj; omega
  · have hn := began_node hwf ms hk
    have hm := began_node hwf ms hl
    rcases Nat.lt_trichotomy k l with h | h | h
    · obtain ⟨p, hp1, hp2, hp3⟩ := one_at_a_time hwf hone ms hm hn (Ne.symm hnm) ht.symm hk hl h
      have hil : HappensBefore (exec C ms).trace i l := by
        rcases hki with rfl | ⟨_, rfl, _⟩
        · exact hp2.trans hp3
        · rw [hend hi hp1]; exact hp3
      rcases hlj with rfl | ⟨_, _, h⟩
      · exact hil
      · exact hil.trans h
    · subst h
      rw [hk] at hl
      simp at hl
      exact absurd hl.1 hnm
    · exfalso
      obtain ⟨p, hp1, hp2, hp3⟩ := one_at_a_time hwf hone ms hn hm hnm ht hl hk h
      have h1 := hb_lt hp2
      have h2 := hb_lt hp3
      have h3 : k ≤ i := by rcases hki with h | ⟨h, _⟩ <;> omega
      rcases hlj with rfl | ⟨_, rfl, _⟩
      · omega
      · have := hend hj hp1; omega

/-- from an event on the control thread to a job that begins later -/
theorem control_job (hwf : C.dag.WF) (ms : List Move) {i j : Nat} {n : Node} {e f : Event}
    (hi : (exec C ms).trace[i]? = some e) (hj : (exec C ms).trace[j]? = some f)
    (he : OnControl (exec C ms).trace e) (h0 : C.threadCount ≠ 0)
    (hf : (∃ x, f = .jobBegin n x) ∨ f = .jobEnd n)
    (hlt : ∀ k, (exec C ms).trace[k]? = some (.launch n) → i ≤ k) :
    HappensBefore (exec C ms).trace i j := by
  obtain ⟨l, c, hl, hc, hlj⟩ := job_event hwf ms hj hf
  obtain ⟨p, q, e1, e2⟩ := split_get hl
  obtain ⟨hb, p', q', e3⟩ := launch_before hwf ms h0 e1
  subst hb
  have htr : (exec C ms).trace = p' ++ Event.launch n :: (q' ++ .jobBegin n false :: q) := by
    rw [e1, e3]; simp
  have hla := get_split htr
  have hll : p'.length < l := by rw [← e2, e3]; simp
  have h1 : HappensBefore (exec C ms).trace i l := by
    rcases Nat.lt_or_ge i p'.length with h | h
    · exact .tail (.single (.program _ _ hi hla h he trivial)) (.create n hla hl hll)
    · have : i = p'.length := by have := hlt _ hla; omega
      rw [this]
      exact .single (.create n hla hl hll)
  rcases hlj with rfl | ⟨_, _, h⟩
  · exact h1
  · exact h1.trans h

/-- **C85**.  Conflicting accesses of the library are ordered: whatever the dag, the schedule and
the number of threads, the earlier of two events with conflicting accesses happens before the
later one. -/
theorem C85_ordered (C : Cfg) (hwf : C.dag.WF) (hone : OneAtATime C) (ms : List Move) (i j : Nat)
    (e f : Event) (hi : (exec C ms).trace[i]? = some e) (hj : (exec C ms).trace[j]? = some f)
    (hij : i < j) (a b : Access) (ha : a ∈ accesses C.dag e) (hb : b ∈ accesses C.dag f)
    (hc : Conflict a b) : HappensBefore (exec C ms).trace i j := by
  obtain ⟨hloc, hwr⟩ := hc
  rcases control_or hwf ms hi with hei | ⟨h0, hei⟩
  · rcases control_or hwf ms hj with hfj | ⟨h0, hfj⟩
    · exact .single (.program _ _ hi hj hij hei hfj)
    · obtain ⟨m, hfm⟩ : ∃ m, f = .jobBegin m false ∨ f = .jobEnd m := by
        rcases hfj with ⟨m, h⟩ | ⟨m, h⟩
        · exact ⟨m, .inl h⟩
        · exact ⟨m, .inr h⟩
      have hfm' : (∃ x, f = .jobBegin m x) ∨ f = .jobEnd m := by
        rcases hfm with h | h
        · exact .inl ⟨_, h⟩
        · exact .inr h
      obtain ⟨w1, w2, w3, w4⟩ := write_cases ha
      rcases worker_accesses hfm hb with rfl | rfl | rfl | ⟨rfl, rfl⟩
      · rw [w1 m hloc] at hwr; simp [Loc.read] at hwr
      · rw [w2 _ hloc] at hwr; simp [Loc.read] at hwr
      · obtain ⟨n, hn, ⟨x, l, rfl⟩ | h | h⟩ := w3 _ hloc
        · refine control_job hwf ms hi hj hei h0 hfm' (fun k hk => ?_)
          exact Nat.le_of_lt (inval_first hwf ms hi hk (m := m) (x := .launch) (by simp [tagOf]))
        · exact job_job hwf hone ms hi hj hij hn (.inl h) hfm'
        · exact job_job hwf hone ms hi hj hij hn (.inr h) hfm'
      · rcases w4 m hloc with rfl | ⟨l, rfl⟩ | rfl
        · refine control_job hwf ms hi hj hei h0 hfm' (fun k hk => Nat.le_of_eq ?_)
          exact tag_unique hwf ms hi hk (n := m) (x := .launch) (y := .launch) (by simp [tagOf])
            (by simp [tagOf]) rfl
        · have := tag_order hwf ms hi hj (n := m) (x := .log) (y := .end) (by simp [tagOf])
            (by simp [tagOf]) hij
          simp [Tag.rank] at this
        · have := tag_order hwf ms hi hj (n := m) (x := .end) (y := .end) (by simp [tagOf])
            (by simp [tagOf]) hij
          simp [Tag.rank] at this
  · obtain ⟨n, hen⟩ : ∃ n, e = .jobBegin n false ∨ e = .jobEnd n := by
      rcases hei with ⟨m, h⟩ | ⟨m, h⟩
      · exact ⟨m, .inl h⟩
      · exact ⟨m, .inr h⟩
    have hen' : (∃ x, e = .jobBegin n x) ∨ e = .jobEnd n := by
      rcases hen with h | h
      · exact .inl ⟨_, h⟩
      · exact .inr h
    obtain ⟨w1, w2, w3, w4⟩ := write_cases hb
    rcases worker_accesses hen ha with rfl | rfl | rfl | ⟨rfl, rfl⟩
    · rw [w1 n hloc.symm] at hwr; simp [Loc.read] at hwr
    · rw [w2 _ hloc.symm] at hwr; simp [Loc.read] at hwr
    · obtain ⟨m, hm, ⟨x, l, rfl⟩ | h | h⟩ := w3 _ hloc.symm
      · exfalso
        have : j < i := by
          rcases hen with rfl | rfl
          · exact inval_first hwf ms hj hi (m := n) (x := .begin false) (by simp [tagOf])
          · exact inval_first hwf ms hj hi (m := n) (x := .end) (by simp [tagOf])
        omega
      · exact job_job hwf hone ms hi hj hij hm.symm hen' (.inl h)
      · exact job_job hwf hone ms hi hj hij hm.symm hen' (.inr h)
    · rcases w4 n hloc.symm with rfl | ⟨l, rfl⟩ | rfl
      · have := tag_order hwf ms hi hj (n := n) (x := .end) (y := .launch) (by simp [tagOf])
          (by simp [tagOf]) hij
        simp [Tag.rank] at this
      · exact .single (.receive n l hi hj hij)
      · have := tag_order hwf ms hi hj (n := n) (x := .end) (y := .end) (by simp [tagOf])
          (by simp [tagOf]) hij
        simp [Tag.rank] at this

/-- **C85**.  No execution of a dag has a data race, if nodes with the same task are ordered or share
a resource. -/
theorem C85_no_race (C : Cfg) (hwf : C.dag.WF) (hone : OneAtATime C) (ms : List Move) (i j : Nat) :
    ¬ DataRace C.dag (exec C ms).trace i j := by
  rintro ⟨e, f, hi, hj, hne, ⟨a, ha, b, hb, hc⟩, h1, h2⟩
  rcases Nat.lt_or_gt_of_ne hne with h | h
  · exact h1 (C85_ordered C hwf hone ms i j e f hi hj h a b ha hb hc)
  · exact h2 (C85_ordered C hwf hone ms j i f e hj hi h b a hb ha ⟨hc.1.symm, hc.2.symm⟩)

/-- **C85**.  Executing a task set has no data race: whatever the set, the filter, the schedule and
the number of threads. -/
theorem C85_set {E : BEnv} {ts : TaskSet} {univ visit : List TaskId}
    {order : List TaskId → List TaskId} {filter : Str} {s : BSt}
    (h : Run E ts univ visit order filter s) (tc : Nat) (ms : List Move) (i j : Nat) :
    ¬ DataRace s.dag (exec (execCfg E.store s.dag tc) ms).trace i j :=
  C85_no_race (execCfg E.store s.dag tc) (h.wf tc)
    (fun _ ha _ hb hne he => absurd (h.taskInj ha hb he) hne) ms i j

/-- Two calls of the job object of one task are never in progress at the same time. -/
theorem C85_calls (C : Cfg) (hwf : C.dag.WF) (hone : OneAtATime C) (ms : List Move)
    (pre post : List Event) (htr : (exec C ms).trace = pre ++ post) (a b : Node)
    (ha : Running pre a) (hb : Running pre b) (ht : C.dag.task a = C.dag.task b) : a = b := by
  by_contra hne
  obtain ⟨⟨x, hx⟩, hxe⟩ := ha
  obtain ⟨⟨y, hy⟩, hye⟩ := hb
  obtain ⟨i, hi⟩ := List.getElem?_of_mem hx
  obtain ⟨j, hj⟩ := List.getElem?_of_mem hy
  have hil := (List.getElem?_eq_some_iff.1 hi).1
  have hjl := (List.getElem?_eq_some_iff.1 hj).1
  have hi' : (exec C ms).trace[i]? = some (.jobBegin a x) := by
    rw [htr, List.getElem?_append_left hil]; exact hi
  have hj' : (exec C ms).trace[j]? = some (.jobBegin b y) := by
    rw [htr, List.getElem?_append_left hjl]; exact hj
  have key : ∀ {k l : Nat} {n : Node}, (exec C ms).trace[k]? = some (.jobEnd n) → l < pre.length →
      HappensBefore (exec C ms).trace k l → Event.jobEnd n ∈ pre := by
    intro k l n hk hl h
    have := hb_lt h
    rw [htr, List.getElem?_append_left (by omega)] at hk
    exact List.mem_of_getElem? hk
  have han := began_node hwf ms hi'
  have hbn := began_node hwf ms hj'
  rcases Nat.lt_trichotomy i j with h | h | h
  · obtain ⟨k, hk, _, h2⟩ := one_at_a_time hwf hone ms hbn han (Ne.symm hne) ht.symm hi' hj' h
    exact hxe (key hk hjl h2)
  · subst h
    rw [hi] at hj
    simp at hj
    exact hne hj.1
  · obtain ⟨k, hk, _, h2⟩ := one_at_a_time hwf hone ms han hbn hne ht hj' hi' h
    exact hye (key hk hil h2)

/-- Conversely: two jobs of one task in progress at the same time are a data race. -/
theorem race_of_overlap (g : Dag) (tr : List Event) (a b : Node) (ha : Running tr a)
    (hb : Running tr b) (hne : a ≠ b) (ht : g.task a = g.task b) (hc : ¬ ∃ n, .jobBegin n true ∈ tr) :
    ∃ i j, DataRace g tr i j := by
  have stuck : ∀ {i j : Nat} {n : Node}, tr[i]? = some (.jobBegin n false) → Event.jobEnd n ∉ tr →
      ¬ HappensBefore tr i j := by
    intro i j n hi hn h
    obtain ⟨k, hs, _⟩ := Relation.TransGen.head'_iff.1 h
    cases hs with
    | program e f h1 h2 h3 h4 h5 => rw [hi] at h1; cases h1; cases h4
    | create m h1 h2 h3 => rw [hi] at h1; cases h1
    | job m b h1 h2 h3 =>
      rw [hi] at h1; cases h1
      exact hn (List.mem_of_getElem? h2)
    | receive m l h1 h2 h3 => rw [hi] at h1; cases h1
  obtain ⟨⟨x, hx⟩, hxe⟩ := ha
  obtain ⟨⟨y, hy⟩, hye⟩ := hb
  have hx0 : x = false := by
    cases x
    · rfl
    · exact absurd ⟨a, hx⟩ hc
  have hy0 : y = false := by
    cases y
    · rfl
    · exact absurd ⟨b, hy⟩ hc
  subst hx0 hy0
  obtain ⟨i, hi⟩ := List.getElem?_of_mem hx
  obtain ⟨j, hj⟩ := List.getElem?_of_mem hy
  refine ⟨i, j, _, _, hi, hj, ?_, ⟨(Loc.job (g.task a)).wr, by simp [accesses],
    (Loc.job (g.task b)).wr, by simp [accesses], ?_⟩, stuck hi hxe, stuck hj hye⟩
  · rintro rfl
    rw [hi] at hj
    simp at hj
    exact hne hj
  · exact ⟨by simp [Loc.wr, ht], by simp [Loc.wr]⟩

/-- two nodes for the same task and nothing that orders them (made by two calls of `insert_set`
for one dag, say) -/
def Ex.twice (res : List Res) : Cfg :=
  { dag := { nodes := [2, 1], edges := [], name := fun n => List.replicate n 'x', task := fun _ => 0 }
    resources := fun _ => res
    hasJob := fun _ => true
    ask := fun _ => .answer { invalidated := true, log := [] }
    outcome := fun _ => Ex.ret 0 []
    threadCount := 2 }

/-- **C85**.  The condition is needed: a dag with two nodes for one task can have a data race. -/
theorem C85_twice : ∃ ms i j,
    DataRace (Ex.twice []).dag (exec (Ex.twice []) ms).trace i j := by
  refine ⟨List.replicate 20 .ctl ++ [.begin 1, .begin 2], 
    race_of_overlap _ _ 1 2 ?_ ?_ (by decide) rfl ?_⟩
  · exact ⟨⟨false, by decide +kernel⟩, by show Event.jobEnd 1 ∉ _; decide +kernel⟩
  · exact ⟨⟨false, by decide +kernel⟩, by show Event.jobEnd 2 ∉ _; decide +kernel⟩
  · rintro ⟨n, hn⟩
    have : ∀ e ∈ (exec (Ex.twice []) (List.replicate 20 .ctl ++ [.begin 1, .begin 2])).trace,
        (match e with | .jobBegin _ b => b | _ => false) = false := by decide +kernel
    exact absurd (this _ hn) (by simp)

/-- with a resource the same dag meets the condition, and both jobs are executed, on two threads -/
example : OneAtATime (Ex.twice [7]) ∧ ∃ ms : List Move,
    (∃ i : Nat, (exec (Ex.twice [7]) ms).trace[i]? = some (Event.jobBegin 1 false)) ∧
    ∃ j : Nat, (exec (Ex.twice [7]) ms).trace[j]? = some (Event.jobBegin 2 false) :=
  ⟨fun _ _ _ _ _ _ => .inl ⟨7, by simp [Ex.twice], by simp [Ex.twice]⟩,
    List.replicate 20 .ctl ++ [.begin 1, .finish 1, .begin 2, .finish 2] ++ List.replicate 20 .ctl ++
      [.begin 1, .finish 1, .begin 2],
    List.getElem?_of_mem (by decide +kernel), List.getElem?_of_mem (by decide +kernel)⟩

/-- conflicting accesses of two threads occur: the job object is asked on the control thread and run
on another -/
example : (∃ i : Nat, (exec (Ex.cfg 2) Ex.done2).trace[i]? = some (Event.jobInval 4 .invalid [])) ∧
    (∃ j : Nat, (exec (Ex.cfg 2) Ex.done2).trace[j]? = some (Event.jobBegin 4 false)) ∧
    (∃ a ∈ accesses Ex.dag (Event.jobInval 4 .invalid []),
      ∃ b ∈ accesses Ex.dag (Event.jobBegin 4 false), Conflict a b) ∧ OneAtATime (Ex.cfg 2) :=
  ⟨List.getElem?_of_mem (by decide +kernel), List.getElem?_of_mem (by decide +kernel),
    ⟨(Loc.job 4).wr, by simp [accesses, Ex.dag], (Loc.job 4).wr, by simp [accesses, Ex.dag],
      rfl, .inl rfl⟩,
    fun _ _ _ _ hne he => absurd he hne⟩

end Joque
