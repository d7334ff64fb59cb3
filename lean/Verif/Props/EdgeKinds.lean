import Verif.Proof.MarkInv
import Verif.Props.Sync2
import Verif.Props.Exec2

/-! # The three kinds of edges of a dag assembled by hand, each on its own

`add_edge` (include/joque/dag.hpp:48-54) lets a user give a dag any edges; `include/joque/dag.hpp:22-30` says
what each kind means.  `insert_set` never makes a REQUIRES edge without an AFTER edge beside it, a
user may. -/

namespace Joque

/-- `before_run` of a task that has a record occurs once -/
theorem before_start (hwf : C.dag.WF) (ms : List Move) {pre post : List Event} {er : ExecRecord}
    {r : RunRecord} (hr : r ∈ recsOf (exec C ms).trace)
    (htr : (exec C ms).trace = pre ++ .beforeRun er r.node :: post) : pre.length = r.start := by
  have hT := tinv_exec hwf ms
  rw [hT.recs] at hr
  obtain ⟨⟨er', h1⟩, _⟩ := (markInv_exec hwf ms).recs r hr
  have hl := hT.lifeRec r hr
  have hcount : (life r.node (exec C ms).trace).count Tag.before = 1 := by
    rw [hl]
    cases r.status <;> simp only [recLife] <;> (try split) <;> decide
  have hone : ∀ e : Event, e = .beforeRun er' r.node ∨ e = .beforeRun er r.node →
      (life r.node [e]).count Tag.before = 1 := by
    rintro e (rfl | rfl) <;> simp [life, tagOf]
  rw [htr] at h1
  rcases Nat.lt_trichotomy r.start pre.length with hlt | he | hgt
  · exfalso
    rw [List.getElem?_append_left hlt] at h1
    obtain ⟨a, b, hab⟩ := List.append_of_mem (List.mem_of_getElem? h1)
    have : (exec C ms).trace = a ++ [.beforeRun er' r.node] ++ b ++ [.beforeRun er r.node] ++ post := by
      rw [htr, hab]; simp
    rw [this] at hcount
    simp only [life_append, List.count_append, hone _ (.inl rfl), hone _ (.inr rfl)] at hcount
    omega
  · exact he.symm
  · exfalso
    obtain ⟨k, hk⟩ : ∃ k, r.start = pre.length + 1 + k :=
      ⟨r.start - pre.length - 1, by omega⟩
    rw [hk, List.getElem?_append_right (by omega)] at h1
    have : pre.length + 1 + k - pre.length = k + 1 := by omega
    rw [this, List.getElem?_cons_succ] at h1
    obtain ⟨a, b, hab⟩ := List.append_of_mem (List.mem_of_getElem? h1)
    have : (exec C ms).trace = pre ++ [.beforeRun er r.node] ++ a ++ [.beforeRun er' r.node] ++ b := by
      rw [htr, hab]; simp
    rw [this] at hcount
    simp only [life_append, List.count_append, hone _ (.inl rfl), hone _ (.inr rfl)] at hcount
    omega

/-- **C100**, what REQUIRES means, whatever the other edges: a task is DEPF exactly if something it
requires had a FAIL or DEPF record when the task was started (its `before_run`). -/
theorem C100_exact (C : Cfg) (hwf : C.dag.WF) (ms : List Move) (pre post : List Event)
    (er : ExecRecord) (r : RunRecord) (hr : r ∈ recsOf (exec C ms).trace)
    (htr : (exec C ms).trace = pre ++ .beforeRun er r.node :: post) :
    r.status = .depf ↔
      ∃ rB ∈ recsOf pre, HasEdge C.dag .requires r.node rB.node ∧ Bad rB := by
  have hs := before_start hwf ms hr htr
  have hT := tinv_exec hwf ms
  rw [hT.recs] at hr
  obtain ⟨_, h⟩ := (markInv_exec hwf ms).recs r hr
  rw [h, htr, ← hs, List.take_left]
  constructor
  · rintro ⟨x, h1, h2, h3⟩; exact ⟨x, h1, h2, badStatus_iff.1 h3⟩
  · rintro ⟨x, h1, h2, h3⟩; exact ⟨x, h1, h2, badStatus_iff.2 h3⟩

/-- **C100**, jobs: when a job begins, its task has been started at a moment when nothing it
requires had a FAIL or DEPF record. -/
theorem C100_began (C : Cfg) (hwf : C.dag.WF) (ms : List Move) (pre post : List Event) (A : Node)
    (b : Bool) (htr : (exec C ms).trace = pre ++ .jobBegin A b :: post) :
    ∃ pre1 er mid, pre = pre1 ++ .beforeRun er A :: mid ∧
      ∀ rB ∈ recsOf pre1, HasEdge C.dag .requires A rB.node → ¬ Bad rB := by
  obtain ⟨i, er, h1, h2⟩ := (markInv_exec hwf ms).began pre _ post htr A b rfl
  have hi : i < pre.length := by
    rcases Nat.lt_or_ge i pre.length with h | h
    · exact h
    · rw [List.getElem?_eq_none h] at h1; cases h1
  refine ⟨pre.take i, er, pre.drop (i + 1), ?_, fun rB hB hreq hbad => h2 ?_⟩
  · rw [List.getElem?_eq_getElem hi] at h1
    rw [← Option.some.inj h1, List.getElem_cons_drop, List.take_append_drop]
  · exact ⟨rB, hB, hreq, badStatus_iff.2 hbad⟩

/-- when a task is started, everything it is ordered after, directly or not, has its record -/
theorem recorded_before (hwf : C.dag.WF) (ms : List Move) {pre post : List Event} {er : ExecRecord}
    {A B : Node} (htr : (exec C ms).trace = pre ++ .beforeRun er A :: post)
    (hAB : Relation.TransGen (AfterEdge C.dag) A B) : Recorded pre B := by
  obtain ⟨X, hAX, hXB⟩ := Relation.TransGen.head'_iff.1 hAB
  have hg := (tinv_exec hwf ms).always pre _ post htr
  exact recorded_chain hwf ms htr (hg.2.2.1 X hAX) hXB

/-- **C100**, where REQUIRES keeps its documented meaning: if the task is also ordered after what it
requires, directly or through others, it is DEPF and never executed once that is FAIL or DEPF. -/
theorem C100_partial (C : Cfg) (hwf : C.dag.WF) (ms : List Move) (A B : Node)
    (hreq : HasEdge C.dag .requires A B) (hAB : Relation.TransGen (AfterEdge C.dag) A B)
    (rB : RunRecord) (hB : rB ∈ recsOf (exec C ms).trace) (hBn : rB.node = B) (hbad : Bad rB) :
    ¬ JobBegan (exec C ms).trace A ∧
    ∀ rA ∈ recsOf (exec C ms).trace, rA.node = A → rA.status = .depf := by
  obtain ⟨hI, hT⟩ := both_exec hwf ms
  -- the record of `B` lies before `before_run` of `A`
  have key : ∀ pre er post, (exec C ms).trace = pre ++ .beforeRun er A :: post → rB ∈ recsOf pre := by
    intro pre er post htr
    obtain ⟨x, hx, hxn⟩ := recorded_before hwf ms htr hAB
    have hx' : x ∈ (exec C ms).erec.runs := by
      rw [← hT.recs, htr, recsOf_append]; exact List.mem_append_left _ hx
    rw [hT.recs] at hB
    have := rec_unique hI hx' hB (by rw [hxn, hBn])
    subst this
    exact hx
  constructor
  · rintro ⟨b, hb⟩
    obtain ⟨pre, post, htr⟩ := List.append_of_mem hb
    obtain ⟨pre1, er, mid, rfl, h⟩ := C100_began C hwf ms pre post A b htr
    exact h rB (key pre1 er (mid ++ .jobBegin A b :: post) (by rw [htr]; simp))
      (by rw [hBn]; exact hreq) hbad
  · rintro rA hA rfl
    have hA' := hA
    rw [hT.recs] at hA'
    obtain ⟨⟨er, h1⟩, _⟩ := (markInv_exec hwf ms).recs rA hA'
    obtain ⟨pre, post, htr⟩ := List.append_of_mem (List.mem_of_getElem? h1)
    exact (C100_exact C hwf ms pre post er rA hA htr).2
      ⟨rB, key pre er post htr, by rw [hBn]; exact hreq, hbad⟩

/-- **C100**, AFTER on its own: a job begins only once everything the task is ordered after has
its record, and then none of these is running or begins any more. -/
theorem C100_after (C : Cfg) (hwf : C.dag.WF) (ms : List Move) (pre post : List Event)
    (A B : Node) (b : Bool) (htr : (exec C ms).trace = pre ++ .jobBegin A b :: post)
    (hAB : HasEdge C.dag .after A B) :
    Recorded pre B ∧ ¬ Running pre B ∧ ¬ JobBegan post B :=
  C01_ordering C hwf ms pre post A B b htr hAB

/-- **C100**, INVALIDATED_BY on its own, in whatever order the two are started: if `B` is executed
then `A` is not skipped. -/
theorem C100_invalidated (C : Cfg) (hwf : C.dag.WF) (ms : List Move) (A B : Node)
    (hAB : HasEdge C.dag .invalidatedBy A B) (hB : JobBegan (exec C ms).trace B) (r : RunRecord)
    (hr : r ∈ recsOf (exec C ms).trace) (hn : r.node = A) : r.status ≠ .skip := fun hs =>
  C08_not_skipped C hwf ms r hr hs B (.single (by rw [hn]; exact hAB)) hB

/-- `x` and `y`, with one edge of kind `k` from `x` to `y`; `y` fails -/
def Ex.edge (k : EKind) (x y : Node) (tc : Nat) : Cfg :=
  { dag := { nodes := [2, 1], edges := [⟨x, y, k⟩], name := fun _ => [], task := fun n => n }
    resources := fun _ => []
    hasJob := fun _ => true
    ask := fun n => .answer { invalidated := n = y ∨ k = .requires, log := [] }
    outcome := fun n => if n = y then Ex.ret 3 [] else Ex.ret 0 []
    threadCount := tc }

theorem Ex.edge_wf (k : EKind) (tc : Nat) (x y : Node) (hx : x = 1 ∨ x = 2) (hy : y = 1 ∨ y = 2) :
    (Ex.edge k x y tc).dag.WF := by
  constructor
  · show [2, 1].Nodup; decide
  · intro e he
    obtain rfl : e = ⟨x, y, k⟩ := by simpa [Ex.edge] using he
    show x ∈ [2, 1] ∧ y ∈ [2, 1]
    rcases hx with rfl | rfl <;> rcases hy with rfl | rfl <;> decide

/-- a complete run on the control thread -/
def Ex.edge0 : List Move := List.replicate 16 .ctl

/-- **C100**, REQUIRES on its own is false: a dag whose only edge says that 1 requires 2.  2 fails,
yet 1 is executed and OK, already without any threads.  If the nodes lie the other way round in
memory (2 requires 1) the same dag ends in DEPF. -/
theorem C100_counterexample :
    HasEdge (Ex.edge .requires 1 2 0).dag .requires 1 2 ∧
    (exec (Ex.edge .requires 1 2 0) Ex.edge0).phase = .finished ∧
    ((recsOf (exec (Ex.edge .requires 1 2 0) Ex.edge0).trace).map fun r => (r.node, r.status)) =
      [(1, .ok), (2, .fail)] ∧
    JobBegan (exec (Ex.edge .requires 1 2 0) Ex.edge0).trace 1 ∧
    ((recsOf (exec (Ex.edge .requires 2 1 0) Ex.edge0).trace).map fun r => (r.node, r.status)) =
      [(1, .fail), (2, .depf)] :=
  ⟨by unfold HasEdge; decide +kernel, by decide +kernel, by decide +kernel,
    ⟨true, by decide +kernel⟩, by decide +kernel⟩

/-- `C100_exact` and `C100_began` on both dags: nothing was recorded when 1 was started, 1 was FAIL
when 2 was -/
example : (∃ er, (exec (Ex.edge .requires 1 2 0) Ex.edge0).trace[8]? = some (.beforeRun er 1)) ∧
    recsOf ((exec (Ex.edge .requires 1 2 0) Ex.edge0).trace.take 8) = [] ∧
    (∃ er, (exec (Ex.edge .requires 2 1 0) Ex.edge0).trace[14]? = some (.beforeRun er 2)) ∧
    (recsOf ((exec (Ex.edge .requires 2 1 0) Ex.edge0).trace.take 14)).map
      (fun r => (r.node, r.status)) = [(1, .fail)] := by
  have key : ∀ (C : Cfg) (i : Nat) (n : Node),
      ((exec C Ex.edge0).trace[i]?.any fun e => match e with
        | .beforeRun _ m => m = n
        | _ => false) = true → ∃ er, (exec C Ex.edge0).trace[i]? = some (.beforeRun er n) := by
    intro C i n h
    cases he : (exec C Ex.edge0).trace[i]? with
    | none => rw [he] at h; cases h
    | some e =>
      rw [he] at h
      cases e <;> simp at h
      subst h
      exact ⟨_, rfl⟩
  exact ⟨key _ _ _ (by decide +kernel), by decide +kernel, key _ _ _ (by decide +kernel),
    by decide +kernel⟩

/-- the hypotheses of `C100_partial`, with a path of two AFTER edges -/
def Ex.viaPath (tc : Nat) : Cfg :=
  { Ex.cfg tc with
    dag := { Ex.dag with edges := [⟨5, 4, .after⟩, ⟨4, 1, .after⟩, ⟨5, 1, .requires⟩,
      ⟨5, 1, .invalidatedBy⟩] } }

example : HasEdge (Ex.viaPath 0).dag .requires 5 1 ∧ ¬ AfterEdge (Ex.viaPath 0).dag 5 1 ∧
    Relation.TransGen (AfterEdge (Ex.viaPath 0).dag) 5 1 ∧
    ((recsOf (exec (Ex.viaPath 0) (List.replicate 31 .ctl)).trace).map fun r => (r.node, r.status)) =
      [(1, .fail), (2, .ok), (3, .ok), (4, .ok), (5, .depf)] :=
  ⟨by unfold HasEdge; decide +kernel, by unfold AfterEdge HasEdge; decide +kernel,
    (Relation.TransGen.single (show AfterEdge _ 5 4 by unfold AfterEdge HasEdge; decide +kernel)).tail
      (show AfterEdge _ 4 1 by unfold AfterEdge HasEdge; decide +kernel), by decide +kernel⟩

/-- INVALIDATED_BY alone, with the invalidated task started first -/
example : HasEdge (Ex.edge .invalidatedBy 1 2 0).dag .invalidatedBy 1 2 ∧
    JobBegan (exec (Ex.edge .invalidatedBy 1 2 0) Ex.edge0).trace 2 ∧
    ((recsOf (exec (Ex.edge .invalidatedBy 1 2 0) Ex.edge0).trace).map fun r => (r.node, r.status)) =
      [(1, .ok), (2, .fail)] :=
  ⟨by unfold HasEdge; decide +kernel, ⟨true, by decide +kernel⟩,
    by decide +kernel⟩

end Joque
