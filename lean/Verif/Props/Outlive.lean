import Verif.Props.Exec5
import Verif.Proof.Outlive3

/-! # C16: exactly when `after_run` is given the right node -/

namespace Joque

theorem before_get {tr : List Event} {x : Node} (h : bix tr x < tr.length) :
    ∃ er, tr[bix tr x]? = some (.beforeRun er x) := by
  have h1 := List.findIdx_getElem (xs := tr) (p := Event.isBefore x) (w := h)
  rw [List.getElem?_eq_getElem h]
  show ∃ er, some (tr[List.findIdx (Event.isBefore x) tr]) = _
  generalize tr[List.findIdx (Event.isBefore x) tr] = e at h1
  cases e with
  | beforeRun er m =>
    have : m = x := by simpa [Event.isBefore] using h1
    exact ⟨er, by rw [this]⟩
  | _ => cases h1

theorem bix_le_of_get {tr : List Event} {x : Node} {i : Nat} {er : ExecRecord}
    (h : tr[i]? = some (.beforeRun er x)) : bix tr x ≤ i := by
  obtain ⟨hi, he⟩ := List.getElem?_eq_some_iff.1 h
  unfold bix
  by_contra hc
  have := List.not_of_lt_findIdx (xs := tr) (p := Event.isBefore x) (i := i) (by omega)
  rw [he] at this
  simp [Event.isBefore] at this

/-- a node begins at most once -/
theorem begins_once {C : Cfg} (hwf : C.dag.WF) (ms : List Move) {i j : Nat} {e1 e2 : ExecRecord}
    {x : Node} (hij : i < j) (hi : (exec C ms).trace[i]? = some (.beforeRun e1 x))
    (hj : (exec C ms).trace[j]? = some (.beforeRun e2 x)) : False := by
  have key : 2 ≤ (life x (exec C ms).trace).count .before := by
    have hi1 := (List.getElem?_eq_some_iff.1 hi)
    have h1 : (exec C ms).trace = (exec C ms).trace.take (i + 1) ++ (exec C ms).trace.drop (i + 1) :=
      (List.take_append_drop _ _).symm
    rw [h1, life_append, List.count_append]
    have a1 : Tag.before ∈ life x ((exec C ms).trace.take (i + 1)) := by
      refine List.mem_filterMap.2 ⟨.beforeRun e1 x, ?_, by simp [tagOf]⟩
      exact List.mem_of_getElem? (i := i) (by rw [List.getElem?_take, if_pos (by omega)]; exact hi)
    have a2 : Tag.before ∈ life x ((exec C ms).trace.drop (i + 1)) := by
      refine List.mem_filterMap.2 ⟨.beforeRun e2 x, ?_, by simp [tagOf]⟩
      refine List.mem_of_getElem? (i := j - (i + 1)) ?_
      rw [List.getElem?_drop, show i + 1 + (j - (i + 1)) = j by omega]; exact hj
    have b1 := List.one_le_count_iff.2 a1
    have b2 := List.one_le_count_iff.2 a2
    omega
  have le : ∀ {l l' : List Tag}, l <+: l' → l.count .before ≤ l'.count .before := fun h =>
    h.sublist.count_le _
  rcases C15_node_history C hwf ms x with h | ⟨_, h⟩ | ⟨_, h⟩
  · have := le h; rw [show ([.before, .after] : List Tag).count .before = 1 by decide] at this; omega
  · have := le h
    rw [show ([.before, .launch, .begin false, .end, .log, .after] : List Tag).count .before = 1
      by decide] at this
    omega
  · have := le h
    rw [show ([.before, .begin true, .end, .log, .after] : List Tag).count .before = 1
      by decide] at this
    omega

/-- **C16**, for every `thread_count`, exactly: the node handed to `after_run` is the one the record
is about if and only if no task that began earlier was reported in the meantime, that is since the
resumption in which this one began, and before the present one. -/
theorem C16_exact (C : Cfg) (hwf : C.dag.WF) (ms : List Move) {pre post : List Event}
    {er : ExecRecord} {r : RunRecord} {m : Node}
    (htr : (exec C ms).trace = pre ++ .afterRun er r m :: post) :
    m = r.node ↔ ¬ Outlives pre r.node := by
  obtain ⟨hb, h, _⟩ := (labInv_exec hwf ms).seen pre _ post htr er r m rfl
  rw [h, not_iff_not]
  have up : ∀ {i : Nat} {e : Event}, pre[i]? = some e → (exec C ms).trace[i]? = some e := by
    intro i e hi
    rw [htr, List.getElem?_append_left (List.getElem?_eq_some_iff.1 hi).1]; exact hi
  constructor
  · rintro ⟨p, e3, r', m', h1, h2, h3, h4⟩
    obtain ⟨e2, hx⟩ := before_get hb
    obtain ⟨e1, hy⟩ := before_get (tr := pre) (x := r'.node) (by omega)
    exact ⟨_, _, p, e1, e2, e3, r', m', h2, hy, hx, h1, h3, h4⟩
  · rintro ⟨i, j, p, e1, e2, e3, r', m', hij, hy, hx, h1, h3, h4⟩
    have hj : j = bix pre r.node := by
      obtain ⟨e4, hx'⟩ := before_get hb
      have := bix_le_of_get hx
      rcases Nat.lt_or_ge (bix pre r.node) j with hlt | hge
      · exact (begins_once hwf ms hlt (up hx') (up hx)).elim
      · omega
    refine ⟨p, e3, r', m', h1, ?_, by rw [← hj]; exact h3, h4⟩
    have := bix_le_of_get hy
    omega

/-- **C16**: when the node is wrong it is that of a task which began earlier. -/
theorem C16_earlier (C : Cfg) (hwf : C.dag.WF) (ms : List Move) {pre post : List Event}
    {er : ExecRecord} {r : RunRecord} {m : Node}
    (htr : (exec C ms).trace = pre ++ .afterRun er r m :: post) (hm : m ≠ r.node) :
    ∃ a b c e1 e2, pre = a ++ .beforeRun e1 m :: b ++ .beforeRun e2 r.node :: c := by
  obtain ⟨hb, _, h⟩ := (labInv_exec hwf ms).seen pre _ post htr er r m rfl
  have hlt : bix pre m < bix pre r.node := h.resolve_left hm
  obtain ⟨e2, hx⟩ := before_get hb
  obtain ⟨e1, hy⟩ := before_get (tr := pre) (x := m) (by omega)
  obtain ⟨_, hx'⟩ := List.getElem?_eq_some_iff.1 hx
  have h1 : pre = pre.take (bix pre r.node) ++ .beforeRun e2 r.node :: pre.drop (bix pre r.node + 1) := by
    rw [← hx', List.getElem_cons_drop, List.take_append_drop]
  have hy2 : (pre.take (bix pre r.node))[bix pre m]? = some (.beforeRun e1 m) := by
    rw [List.getElem?_take, if_pos hlt]; exact hy
  obtain ⟨a, b, hab⟩ := List.append_of_mem (List.mem_of_getElem? hy2)
  exact ⟨a, b, _, e1, e2, by rw [← hab]; exact h1⟩

/-- the task of the counterexample outlives task 1 -/
example : ∃ pre, pre <+: (exec (Ex.par 3) Ex.swapMoves).trace ∧ Outlives pre 3 := by
  obtain ⟨er, r, hr, hm⟩ := C16_counterexample
  obtain ⟨pre, post, htr⟩ := List.append_of_mem hm
  refine ⟨pre, ⟨_, htr.symm⟩, ?_⟩
  by_contra hc
  have := (C16_exact (Ex.par 3) (Ex.par_wf 3) Ex.swapMoves htr).2 (by rw [hr]; exact hc)
  rw [hr] at this
  cases this

/-- The youngest task first: every node is right. -/
def Ex.stackMoves : List Move :=
  List.replicate 17 .ctl ++ [.begin 1, .begin 3, .finish 3] ++ List.replicate 6 .ctl ++
    [.finish 1] ++ List.replicate 8 .ctl

example : (recsOf (exec (Ex.par 3) Ex.stackMoves).trace).map RunRecord.node = [3, 1] ∧
    ∀ e ∈ (exec (Ex.par 3) Ex.stackMoves).trace, (match e with
      | .afterRun _ r n => decide (r.node = n)
      | _ => true) = true := ⟨by decide +kernel, by decide +kernel⟩

end Joque
