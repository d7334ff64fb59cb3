import Verif.Proof.Interleave
import Verif.Props.Order

/-!
# In which ways jobs can interleave

Statement C119.
-/

namespace Joque

/-- **C119**, every history: jobs are entered and left in an order that respects the declared orderings,
whatever the schedule, the threads and the resources. -/
theorem C119_only (C : Cfg) (hwf : C.dag.WF)
    (hra : ∀ a b, HasEdge C.dag .requires a b → AfterEdge C.dag a b) (ms : List Move) :
    Interleaving (fun n => ∃ ms, JobBegan (exec C ms).trace n) (Relation.TransGen (AfterEdge C.dag))
      (jobWord (exec C ms).trace) := by
  obtain ⟨hI, hT⟩ := both_exec hwf ms
  have hends : ∀ p n q, jobWord (exec C ms).trace = p ++ .ends n :: q → .begins n ∈ p ∧ .ends n ∉ p := by
    intro p n q h
    obtain ⟨P, e, Q, htr, hP, he⟩ := jobWord_split h
    obtain rfl := jobWord_ends he
    rw [← hP, begins_mem, ends_mem, begin_mem_life, end_mem_life]
    have h1 := C15_node_history C hwf ms n
    rw [htr, life_append] at h1
    have e1 : life n (.jobEnd n :: Q) = .end :: life n Q := by simp [life, tagOf]
    rw [e1] at h1
    generalize life n P = l at *
    rcases h1 with h1 | ⟨-, h1⟩ | ⟨-, h1⟩
    · obtain ⟨r, h1⟩ := h1
      have := congrArg (fun l => Tag.end ∈ l) h1
      simp at this
    · obtain ⟨r, h1⟩ := h1
      rcases l with _ | ⟨a, _ | ⟨b, _ | ⟨c, _ | ⟨d, _ | ⟨e, _ | ⟨f, _ | ⟨g, l⟩⟩⟩⟩⟩⟩⟩ <;> simp at h1 ⊢ <;> simp_all
    · obtain ⟨r, h1⟩ := h1
      rcases l with _ | ⟨a, _ | ⟨b, _ | ⟨c, _ | ⟨d, _ | ⟨e, _ | ⟨f, l⟩⟩⟩⟩⟩⟩ <;> simp at h1 ⊢ <;> simp_all
  refine ⟨?_, ?_, ?_, fun p n q h => (hends p n q h).1⟩
  · -- no letter occurs twice
    have key : ∀ w : List JobEv, (∀ p x q, w = p ++ x :: q → x ∉ p) → w.Nodup := by
      intro w
      induction w using List.reverseRecOn with
      | nil => intro _; exact List.nodup_nil
      | append_singleton w x ih =>
        intro h
        rw [List.nodup_append]
        refine ⟨ih fun p y q e => h p y (q ++ [x]) (by rw [e]; simp), by simp, ?_⟩
        intro a ha b hb e
        rw [List.mem_singleton] at hb
        subst hb
        subst e
        exact h w a [] rfl ha
    apply key
    intro p x q h
    cases x with
    | ends n => exact (hends p n q h).2
    | begins n =>
      obtain ⟨P, e, Q, htr, hP, he⟩ := jobWord_split h
      obtain ⟨b, rfl⟩ := jobWord_begins he
      rw [← hP, begins_mem]
      exact (C02_at_most_once C hwf ms P Q n b htr).2.1
  · intro n hn
    exact ⟨ms, begins_mem.1 hn⟩
  · intro p n q h m hm hnm
    obtain ⟨P, e, Q, htr, hP, he⟩ := jobWord_split h
    obtain ⟨b, rfl⟩ := jobWord_begins he
    obtain ⟨x, hnx, hxm⟩ := Relation.TransGen.head'_iff.1 hnm
    have hrec := recorded_chain hwf ms htr ((C01_ordering C hwf ms P Q n x b htr hnx).1) hxm
    obtain ⟨-, r, hr, rfl, hl⟩ := rec_split hT htr hrec
    have hst := Executes.status hwf hra hm ms (r := r) (by rw [hT.recs]; exact hr) rfl
    rw [← hP, ends_mem, end_mem_life, hl]
    rcases hst with hst | hst <;> rw [hst] <;> simp only [recLife] <;> split <;> simp

/-- **C119**.  Where neither threads nor resources make tasks wait, jobs can be entered and left in every order
that respects the declared orderings. -/
theorem C119_possible (C : Cfg) (hG : Healthy C)
    (hra : ∀ a b, HasEdge C.dag .requires a b → AfterEdge C.dag a b) (hU : Unhindered C) (w : List JobEv)
    (hw : Interleaving (fun n => ∃ ms, JobBegan (exec C ms).trace n) (Relation.TransGen (AfterEdge C.dag)) w) :
    ∃ ms, (exec C ms).phase.active = true ∧ jobWord (exec C ms).trace = w := by
  have hk : C.threadCount ≠ 0 := by have := hU.some; omega
  have hdead : ∀ s : St, s.phase.active = true → s.phase.dead = false := by
    intro s h
    cases hp : s.phase <;> rw [hp] at h <;> first | rfl | (cases h)
  induction w using List.reverseRecOn with
  | nil =>
    refine ⟨[.ctl], ?_, ?_⟩
    · show (prologue C St.init).phase.active = true
      rw [prologue_healthy hG]; rfl
    · show jobWord (prologue C St.init).trace = []
      rcases prologue_spec hG.wf with ⟨h, _⟩ | ⟨_, _, _, evs, ht, he, _⟩ | ⟨_, pre, n, post, _, _, _, ht, _⟩
      · exact absurd h hG.acyclic
      · unfold jobWord
        rw [List.filterMap_eq_nil_iff]
        intro e hem
        rw [ht] at hem
        simp only [List.cons_append, List.mem_cons, List.mem_append, List.mem_map] at hem
        rcases hem with rfl | ⟨_, _, rfl⟩ | ⟨_, _, rfl⟩ | hem
        · rfl
        · rfl
        · rfl
        · obtain ⟨_, _, rfl, _⟩ := he _ hem
          rfl
      · unfold jobWord
        rw [List.filterMap_eq_nil_iff]
        intro e hem
        rw [ht] at hem
        simp only [List.cons_append, List.mem_cons, List.mem_append, List.mem_map] at hem
        rcases hem with rfl | ⟨_, _, rfl⟩ | ⟨_, _, rfl⟩ <;> rfl
  | append_singleton w x ih =>
    have hnd := hw.once
    rw [List.nodup_append] at hnd
    have hx : x ∉ w := fun h => hnd.2.2 x h x (by simp) rfl
    obtain ⟨ms, hact, hms⟩ := ih ⟨hnd.1, fun n hn => hw.which n (by simp [hn]),
      fun p n q e => hw.order p n (q ++ [x]) (by rw [e]; simp),
      fun p n q e => hw.ends p n (q ++ [x]) (by rw [e]; simp)⟩
    cases x with
    | ends n =>
      have hb := hw.ends w n [] rfl
      rw [← hms, begins_mem] at hb
      rw [← hms, ends_mem] at hx
      obtain ⟨hr, -⟩ := running_worker (inv_exec hG.wf ms) (tinv_exec hG.wf ms) ⟨hb, hx⟩
      refine ⟨ms ++ [.finish n], ?_, ?_⟩ <;> rw [exec_snoc]
      · simpa [step, hdead _ hact, hr, St.emit] using hact
      · simp only [step, hdead _ hact, hr, St.emit, if_true, Bool.false_eq_true, if_false]
        rw [jobWord_append, hms]
        rfl
    | begins n =>
      obtain ⟨m, h1, h2, h3⟩ := saturate hG hk ms hact
      rw [hms] at h2
      have hnb : ¬ JobBegan (exec C (ms ++ List.replicate m .ctl)).trace n := by
        rw [← begins_mem, h2]; exact hx
      have hn : Executes C n := hw.which n (by simp)
      have hq : (exec C (ms ++ List.replicate m .ctl)).worker n = .queued := by
        rcases h3 with h3 | h3
        · exfalso
          have hT := tinv_exec hG.wf (ms ++ List.replicate m .ctl)
          obtain ⟨hp, -⟩ := C02_one_record C hG.wf _ h3
          obtain ⟨r, hr, rfl⟩ := List.mem_map.1 (hp.mem_iff.2 (hn.node hG.wf))
          exact hnb ((began_of_status hT hr).1.2 (hn.status hG.wf hra _ (by rw [hT.recs]; exact hr) rfl))
        · refine idling_queued hG hra hU _ h3 hn hnb fun y hy hny => ?_
          rw [← ends_mem, h2]
          exact hw.order w n [] rfl y hy hny
      refine ⟨ms ++ List.replicate m .ctl ++ [.begin n], ?_, ?_⟩ <;> rw [exec_snoc]
      · simpa [step, hdead _ h1, hq, St.emit] using h1
      · simp only [step, hdead _ h1, hq, St.emit, if_true, Bool.false_eq_true, if_false]
        rw [jobWord_append, h2]
        rfl

/-- **C119**, exactly: the ways in which jobs can have been entered and left at some moment. -/
theorem C119_exact (C : Cfg) (hG : Healthy C)
    (hra : ∀ a b, HasEdge C.dag .requires a b → AfterEdge C.dag a b) (hU : Unhindered C) (w : List JobEv) :
    (∃ ms, jobWord (exec C ms).trace = w) ↔
      Interleaving (fun n => ∃ ms, JobBegan (exec C ms).trace n) (Relation.TransGen (AfterEdge C.dag)) w := by
  constructor
  · rintro ⟨ms, rfl⟩
    exact C119_only C hG.wf hra ms
  · intro h
    obtain ⟨ms, -, h⟩ := C119_possible C hG hra hU w h
    exact ⟨ms, h⟩

/-- **C119**, exactly: the ways in which jobs can be entered and left in an execution that comes to its
end. -/
theorem C119_whole (C : Cfg) (hG : Healthy C)
    (hra : ∀ a b, HasEdge C.dag .requires a b → AfterEdge C.dag a b) (hU : Unhindered C) (w : List JobEv) :
    (∃ ms, (exec C ms).phase = .finished ∧ jobWord (exec C ms).trace = w) ↔
      Interleaving (fun n => ∃ ms, JobBegan (exec C ms).trace n) (Relation.TransGen (AfterEdge C.dag)) w ∧
      AllLeft (fun n => ∃ ms, JobBegan (exec C ms).trace n) w := by
  have hk : C.threadCount ≠ 0 := by have := hU.some; omega
  constructor
  · rintro ⟨ms, hfin, rfl⟩
    refine ⟨C119_only C hG.wf hra ms, fun n hn => ?_⟩
    have hT := tinv_exec hG.wf ms
    obtain ⟨hp, -⟩ := C02_one_record C hG.wf ms hfin
    obtain ⟨r, hr, rfl⟩ := List.mem_map.1 (hp.mem_iff.2 (Executes.node hG.wf hn))
    have h1 := began_of_status hT hr
    rw [ends_mem]
    exact h1.2 (h1.1.2 (Executes.status hG.wf hra hn ms (by rw [hT.recs]; exact hr) rfl))
  · rintro ⟨h, hall⟩
    obtain ⟨ms, hact, rfl⟩ := C119_possible C hG hra hU w h
    obtain ⟨m, -, h2, h3⟩ := saturate hG hk ms hact
    refine ⟨_, ?_, h2⟩
    rcases h3 with h3 | h3
    · exact h3
    · exact (idling_open hG _ h3 fun n hn => ends_mem.1 (h2 ▸ hall n hn)).elim

/-! An example: 3 depends on 1 and needs the resource that 1 needs, 2 is independent of both. -/

/-- two threads, three tasks -/
def Ex.fork : Cfg where
  dag := { nodes := [3, 2, 1], edges := [⟨3, 1, .after⟩, ⟨3, 1, .requires⟩], name := fun _ => [], task := id }
  resources := fun n => if n = 2 then [] else [7]
  hasJob := fun _ => true
  ask := fun _ => .answer ⟨true, []⟩
  outcome := fun _ => Ex.ret 0 []
  threadCount := 2

theorem Ex.fork_edge {a b : Node} : AfterEdge Ex.fork.dag a b ↔ a = 3 ∧ b = 1 := by
  simp [AfterEdge, HasEdge, Ex.fork]

theorem Ex.fork_trans {a b : Node} : Relation.TransGen (AfterEdge Ex.fork.dag) a b ↔ a = 3 ∧ b = 1 := by
  constructor
  · intro h
    induction h with
    | single h => exact Ex.fork_edge.1 h
    | tail _ h ih =>
      obtain ⟨rfl, rfl⟩ := Ex.fork_edge.1 h
      obtain ⟨-, h⟩ := ih
      cases h
  · rintro ⟨rfl, rfl⟩
    exact .single (Ex.fork_edge.2 ⟨rfl, rfl⟩)

theorem Ex.fork_healthy : Healthy Ex.fork where
  wf := by constructor <;> simp [Ex.fork]
  acyclic := by
    rintro ⟨n, h⟩
    obtain ⟨rfl, h⟩ := Ex.fork_trans.1 h
    cases h
  jobs := fun _ _ => rfl
  answers := fun _ _ => ⟨_, rfl⟩
  codes := by
    intro n _ rr h
    cases h
    simp

theorem Ex.fork_unhindered : Unhindered Ex.fork where
  some := by decide
  threads := by
    intro l hnd hl hu
    show l.length ≤ 2
    by_contra hlen
    have hsub : l ⊆ [3, 2, 1] := fun a ha => by simpa [Ex.fork] using hl a ha
    have hp : l.Perm [3, 2, 1] := (List.subperm_of_subset hnd hsub).perm_of_length_le (by simp; omega)
    exact hu 3 (hp.mem_iff.2 (by simp)) 1 (hp.mem_iff.2 (by simp)) (Ex.fork_trans.2 ⟨rfl, rfl⟩)
  resources := by
    intro a ha b hb hne h1 h2 r hr hr'
    rw [Ex.fork_trans] at h1 h2
    simp only [Ex.fork, List.mem_cons, List.not_mem_nil, or_false] at ha hb hr hr'
    rcases ha with rfl | rfl | rfl <;> rcases hb with rfl | rfl | rfl <;> simp at hne h1 h2 hr hr'

/-- 3 is entered while 2 is executing, and 2 was entered before 1 was left -/
def Ex.forkWord : List JobEv := [.begins 2, .begins 1, .ends 1, .begins 3, .ends 3, .ends 2]

theorem Ex.fork_runs (n : Node) : (∃ ms, JobBegan (exec Ex.fork ms).trace n) ↔ n = 1 ∨ n = 2 ∨ n = 3 := by
  constructor
  · intro h
    have := Executes.node Ex.fork_healthy.wf h
    simp only [Ex.fork, List.mem_cons, List.not_mem_nil, or_false] at this
    tauto
  · have h : ∀ n, n = 1 ∨ n = 2 ∨ n = 3 → Event.jobBegin n false ∈ (exec Ex.fork (List.replicate 20 .ctl ++
      [.begin 2, .begin 1, .finish 1] ++ List.replicate 20 .ctl ++ [.begin 3])).trace := by
      rintro n (rfl | rfl | rfl) <;> decide +kernel
    exact fun hn => ⟨_, false, h n hn⟩

theorem Ex.fork_word : Interleaving (fun n => ∃ ms, JobBegan (exec Ex.fork ms).trace n)
    (Relation.TransGen (AfterEdge Ex.fork.dag)) Ex.forkWord := by
  refine ⟨by decide, ?_, ?_, ?_⟩
  · intro n hn
    rw [Ex.fork_runs]
    simp [Ex.forkWord] at hn
    tauto
  · intro p n q e m _ hm
    obtain ⟨rfl, rfl⟩ := Ex.fork_trans.1 hm
    rcases p with _ | ⟨a, _ | ⟨b, _ | ⟨c, p⟩⟩⟩ <;> simp [Ex.forkWord] at e
    simp [← e.2.2.1]
  · intro p n q e
    have h1 : p = Ex.forkWord.take p.length := by rw [e]; simp
    have h2 : Ex.forkWord[p.length]? = some (.ends n) := by rw [e]; simp
    rw [h1]
    generalize p.length = i at *
    rcases i with _ | _ | _ | _ | _ | _ | i <;> simp [Ex.forkWord] at h2 <;> subst h2 <;> decide

/-- this happens, in an execution that comes to its end -/
example : ∃ ms, (exec Ex.fork ms).phase = .finished ∧ jobWord (exec Ex.fork ms).trace = Ex.forkWord :=
  (C119_whole Ex.fork Ex.fork_healthy (by
    intro a b h
    simp [HasEdge, Ex.fork] at h
    exact Ex.fork_edge.2 h) Ex.fork_unhindered _).2 ⟨Ex.fork_word, fun n hn => by
      rcases (Ex.fork_runs n).1 hn with rfl | rfl | rfl <;> decide⟩

/-- with one thread the tasks of `Ex.par` are started by address, although nothing orders them: the condition
on the threads is needed -/
theorem C119_needed :
    Interleaving (fun n => ∃ ms, JobBegan (exec (Ex.par 1) ms).trace n)
      (Relation.TransGen (AfterEdge (Ex.par 1).dag)) [.begins 3] ∧
    ∀ ms, jobWord (exec (Ex.par 1) ms).trace ≠ [.begins 3] := by
  have hwf := Ex.par_wf 1
  have hG := Ex.par_healthy 1
  have hno : ∀ a b, ¬ AfterEdge (Ex.par 1).dag a b := fun a b h => by simp [AfterEdge, HasEdge, Ex.par] at h
  have hb1 : Executes (Ex.par 1) 1 := ⟨List.replicate 8 .ctl ++ [.begin 1], false, by decide +kernel⟩
  refine ⟨⟨by simp, ?_, ?_, ?_⟩, ?_⟩
  · intro n hn
    simp at hn
    subst hn
    refine ⟨List.replicate 8 .ctl ++ [.begin 1, .finish 1] ++ List.replicate 10 .ctl ++ [.begin 2, .finish 2] ++
      List.replicate 10 .ctl ++ [.begin 3], false, ?_⟩
    decide +kernel
  · intro p n q _ m _ h
    obtain ⟨x, hx, -⟩ := Relation.TransGen.head'_iff.1 h
    exact absurd hx (hno _ _)
  · intro p n q h
    rcases p with _ | ⟨a, p⟩ <;> simp at h
  · intro ms h
    have h3 : JobBegan (exec (Ex.par 1) ms).trace 3 := by rw [← begins_mem, h]; simp
    have h1 : ¬ JobBegan (exec (Ex.par 1) ms).trace 1 := by rw [← begins_mem, h]; simp
    obtain ⟨hI, hT⟩ := both_exec hwf ms
    have hbef : Tag.before ∈ life 3 (exec (Ex.par 1) ms).trace := by
      rw [begin_mem_life] at h3
      obtain ⟨b, h3⟩ := h3
      rcases C15_node_history (Ex.par 1) hwf ms 3 with hl | ⟨-, hl⟩ | ⟨-, hl⟩
      all_goals
        generalize life 3 (exec (Ex.par 1) ms).trace = l at *
        obtain ⟨r, hl⟩ := hl
        rcases l with _ | ⟨x, l⟩ <;> simp at hl h3 ⊢
        simp [hl.1]
    obtain ⟨e, he, het⟩ := List.mem_filterMap.1 hbef
    obtain ⟨er, rfl⟩ : ∃ er, e = .beforeRun er 3 := by
      cases e <;> simp [tagOf] at het
      subst het
      exact ⟨_, rfl⟩
    obtain ⟨P, Q, htr⟩ := List.append_of_mem he
    obtain ⟨pre, mid, rfl, -, -, hlife, hthr, a, b, hab, -, hfirst⟩ :=
      C93_priority (Ex.par 1) hwf [1, 2, 3] ⟨by decide, by decide⟩ ms P Q er 3 htr
    have hfly : ∀ m, ¬ InFlight pre m := by
      intro m hm
      rcases hthr [m] (by simp) (by simpa using hm) with h | h
      · simp [Ex.par] at h
      · cases h
    rcases hlife 1 (by simp [Ex.par]) with hf | ⟨hr | hr, -⟩
    · have ho : startOrder (Ex.par 1).dag [1, 2, 3] = [1, 2, 3] := by decide
      rw [ho] at hab
      have ha : 1 ∈ a := by
        rcases a with _ | ⟨x, a⟩ <;> simp at hab
        simp [← hab.1]
      exact hfirst 1 ha ⟨by simp [Ex.par], hf, fun m hm => absurd hm (hno _ _), fun m hm => absurd hm (hfly m)⟩
    · rw [List.append_assoc] at htr
      obtain ⟨-, r, hr, hr1, -⟩ := rec_split hT htr hr
      have := (began_of_status hT hr).1.2 (hb1.status hwf (fun a b h => by simp [HasEdge, Ex.par] at h) ms
        (by rw [hT.recs]; exact hr) hr1)
      rw [hr1] at this
      exact h1 this
    · exact hfly 1 hr

end Joque
