import Verif.Props.Sync

/-! # Order through other tasks (C01, C63) -/

namespace Joque

variable {C : Cfg}

/-- what a recorded task is ordered after is recorded too -/
theorem recorded_after (hwf : C.dag.WF) (ms : List Move) {p q : List Event} {x y : Node}
    (htr : (exec C ms).trace = p ++ q) (hr : Recorded p x) (hxy : AfterEdge C.dag x y) :
    Recorded p y := by
  have hT := tinv_exec hwf ms
  obtain ⟨_, r, _, _, h2⟩ := rec_split hT htr hr
  have hbef : Tag.before ∈ life x p := by
    rw [h2]
    cases r.status <;> simp only [recLife] <;> (try split) <;> simp
  obtain ⟨e, he, hx⟩ := List.mem_filterMap.1 hbef
  obtain ⟨u, v, huv⟩ := List.append_of_mem he
  have hg := hT.always u e (v ++ q) (by rw [htr, huv]; simp)
  cases e <;> simp [tagOf] at hx
  subst hx
  obtain ⟨r', hr', hn⟩ := hg.2.2.1 y hxy
  refine ⟨r', ?_, hn⟩
  rw [huv, recsOf_append]
  exact List.mem_append_left _ hr'

theorem recorded_chain (hwf : C.dag.WF) (ms : List Move) {p q : List Event} {x y : Node}
    (htr : (exec C ms).trace = p ++ q) (hr : Recorded p x)
    (hxy : Relation.ReflTransGen (AfterEdge C.dag) x y) : Recorded p y := by
  induction hxy with
  | refl => exact hr
  | tail _ h ih => exact recorded_after hwf ms htr ih h

/-- **C01**.  The order holds through other tasks, whatever becomes of these (even if none of them
is executed): if `A` is ordered after something that is ordered after … `B`, then `B` has its record
when the job of `A` begins; its job is not running and will not begin any more. -/
theorem C01_transitive (C : Cfg) (hwf : C.dag.WF) (ms : List Move) (pre post : List Event)
    (A B : Node) (b : Bool) (htr : (exec C ms).trace = pre ++ .jobBegin A b :: post)
    (hAB : Relation.TransGen (AfterEdge C.dag) A B) :
    Recorded pre B ∧ ¬ Running pre B ∧ ¬ JobBegan post B := by
  obtain ⟨X, hAX, hXB⟩ := Relation.TransGen.head'_iff.1 hAB
  have hT := tinv_exec hwf ms
  have hrec := recorded_chain hwf ms htr (C01_ordering C hwf ms pre post A X b htr hAX).1 hXB
  obtain ⟨h1, r, _, _, h2⟩ := rec_split hT htr hrec
  refine ⟨hrec, ?_, ?_⟩
  · rw [Running, begin_mem_life, end_mem_life, h2]
    cases r.status <;> simp only [recLife] <;> (try split) <;> simp
  · intro h
    obtain ⟨b', hb'⟩ := begin_mem_life.1 h
    rw [life] at h1
    have : Tag.begin b' ∈ List.filterMap (tagOf B) (.jobBegin A b :: post) := by
      rw [List.filterMap_cons]
      split
      · exact hb'
      · exact List.mem_cons_of_mem _ hb'
    rw [h1] at this
    cases this

/-- **C63**.  Also through other tasks, whatever becomes of these: everything `B`'s job did happens
before everything `A`'s job does. -/
theorem C63_transitive (C : Cfg) (hwf : C.dag.WF) (ms : List Move) (A B : Node) (a b : Bool)
    (i j : Nat) (hAB : Relation.TransGen (AfterEdge C.dag) A B)
    (hi : (exec C ms).trace[i]? = some (.jobBegin B b))
    (hj : (exec C ms).trace[j]? = some (.jobBegin A a)) :
    ∃ k, (exec C ms).trace[k]? = some (.jobEnd B) ∧ HappensBefore (exec C ms).trace i k ∧
      HappensBefore (exec C ms).trace k j := by
  obtain ⟨pre, post, h1, h2⟩ := split_get hj
  obtain ⟨hrec, _, hpost⟩ := C01_transitive C hwf ms pre post A B a h1 hAB
  have hij : i < j := by
    by_contra hle
    rcases Nat.lt_or_ge i (j + 1) with h | h
    · have hij : i = j := by omega
      rw [hij, hj] at hi
      simp only [Option.some.injEq, Event.jobBegin.injEq] at hi
      obtain ⟨h3, _⟩ := rec_split (both_exec hwf ms).2 h1 hrec
      rw [hi.1] at h3
      simp [life, tagOf] at h3
    · apply hpost
      refine ⟨b, ?_⟩
      rw [h1, List.getElem?_append_right (by omega), h2,
        show i - j = (i - j - 1) + 1 by omega, List.getElem?_cons_succ] at hi
      exact List.mem_of_getElem? hi
  by_cases h0 : C.threadCount = 0
  · exact sync_sequential hwf ms h0 hi hj hij
  · obtain ⟨_, p, q, hpq⟩ := launch_before hwf ms h0 h1
    have htr : (exec C ms).trace = p ++ Event.launch A :: (q ++ .jobBegin A a :: post) := by
      rw [h1, hpq]; simp
    obtain ⟨X, hAX, hXB⟩ := Relation.TransGen.head'_iff.1 hAB
    refine sync_threads hwf ms h0 hi hj htr ?_
      (recorded_chain hwf ms htr (at_launch hwf ms htr X (.inl hAX)) hXB)
    rw [← h2, hpq]; simp

/-- task 3 is ordered after task 2, and that after task 4, though there is no edge from 3 to 4; 3
and 4 are executed -/
def Ex.chain3 (tc : Nat) : Cfg where
  dag := Ex.dag
  resources := fun _ => []
  hasJob := fun _ => true
  ask := fun n => .answer ⟨decide (n = 4 ∨ n = 3), []⟩
  outcome := fun _ => Ex.ret 0 []
  threadCount := tc

/-- task 2 is skipped here, and the order of 3 and 4 is kept -/
example : Relation.TransGen (AfterEdge (Ex.chain3 2).dag) 3 4 ∧ ¬ AfterEdge (Ex.chain3 2).dag 3 4 ∧
    (∃ i : Nat, (exec (Ex.chain3 2) Ex.done2).trace[i]? = some (Event.jobBegin 4 false)) ∧
    (∃ j : Nat, (exec (Ex.chain3 2) Ex.done2).trace[j]? = some (Event.jobBegin 3 false)) ∧
    ¬ JobBegan (exec (Ex.chain3 2) Ex.done2).trace 2 :=
  ⟨.tail (.single (by show (⟨3, 2, .after⟩ : Edge) ∈ Ex.dag.edges; decide))
      (by show (⟨2, 4, .after⟩ : Edge) ∈ Ex.dag.edges; decide),
    by show ¬ (⟨3, 4, .after⟩ : Edge) ∈ Ex.dag.edges; decide,
    List.getElem?_of_mem (by decide +kernel), List.getElem?_of_mem (by decide +kernel),
    by
      rintro ⟨b, h⟩
      have : ∀ e ∈ (exec (Ex.chain3 2) Ex.done2).trace, ∀ b, e ≠ .jobBegin 2 b := by decide +kernel
      exact this _ h b rfl⟩

end Joque
