import Verif.Props.Example
import Verif.Proof.History

/-!
# Properties of every execution: ordering, uniqueness, resources, threads, statuses

`exec C ms` is the state after any list `ms` of moves (control thread, worker threads, failing
thread creation, destruction, in any interleaving) and `(exec C ms).trace` its history.
-/

namespace Joque

/-- **C01**.  When the job of `A` begins, everything `A` is ordered after already has its record,
is not executing, and never begins afterwards. -/
theorem C01_ordering (C : Cfg) (hwf : C.dag.WF) (ms : List Move) (pre post : List Event)
    (A B : Node) (b : Bool) (htr : (exec C ms).trace = pre ++ .jobBegin A b :: post)
    (hAB : AfterEdge C.dag A B) :
    Recorded pre B ∧ ¬ Running pre B ∧ ¬ JobBegan post B := by
  obtain ⟨hI, hT⟩ := both_exec hwf ms
  have hrec : Recorded pre B := (hT.always pre _ post htr).2.2.1 B hAB
  obtain ⟨h1, r, _, _, h2⟩ := rec_split hT htr hrec
  refine ⟨hrec, ?_, ?_⟩
  · rw [Running, begin_mem_life, end_mem_life, h2]
    obtain ⟨x, hx, _, hx3⟩ := recLife_snoc C.threadCount r.status
    rw [hx]
    rintro ⟨⟨y, hy⟩, he⟩
    apply he
    have : Tag.end ∈ x := hx3 ⟨y, by simpa using hy⟩
    simp [this]
  · rw [begin_mem_life]
    rintro ⟨y, hy⟩
    have : life B (.jobBegin A b :: post) = life B [.jobBegin A b] ++ life B post := by
      rw [← life_append]; rfl
    rw [this] at h1
    have := (List.append_eq_nil_iff.1 h1).2
    rw [this] at hy; cases hy

/-- task 2 begins its job, and it is ordered after task 4 -/
example : (∃ pre post, (exec (Ex.cfg 2) Ex.done2).trace = pre ++ .jobBegin 2 false :: post) ∧
    AfterEdge (Ex.cfg 2).dag 2 4 :=
  ⟨List.append_of_mem (by decide +kernel), by
    show (⟨2, 4, .after⟩ : Edge) ∈ Ex.dag.edges; decide⟩

/-- **C02**.  No job is started twice. -/
theorem C02_at_most_once (C : Cfg) (hwf : C.dag.WF) (ms : List Move) (pre post : List Event)
    (n : Node) (b : Bool) (htr : (exec C ms).trace = pre ++ .jobBegin n b :: post) :
    n ∈ C.dag.nodes ∧ ¬ JobBegan pre n ∧ ¬ JobBegan post n := by
  obtain ⟨hI, hT⟩ := both_exec hwf ms
  refine ⟨?_, begin_split hI hT htr⟩
  have hb : ∃ b, Tag.begin b ∈ life n (exec C ms).trace := begin_mem_life.1 ⟨b, by rw [htr]; simp⟩
  by_cases hn : n ∈ allNodes (exec C ms)
  · exact hI.inNodes n hn
  · rcases hT.lifeOther n hn with h | h <;> simp [h] at hb

/-- **C02**.  When the execution has returned its record, the record has exactly one entry per
node of the dag, for no other node, carrying that node's task and name; `total_count` is the
number of nodes. -/
theorem C02_one_record (C : Cfg) (hwf : C.dag.WF) (ms : List Move)
    (hfin : (exec C ms).phase = .finished) :
    ((exec C ms).erec.runs.map RunRecord.node).Perm C.dag.nodes ∧
    (∀ r ∈ (exec C ms).erec.runs, r.t = C.dag.task r.node ∧ r.name = C.dag.name r.node) ∧
    (exec C ms).erec.totalCount = C.dag.nodes.length := by
  obtain ⟨hI, hT⟩ := both_exec hwf ms
  have hact : (exec C ms).phase.active = true := by rw [hfin]; rfl
  have hk := (hI.notClean hact (by rw [hfin]; rfl)).1
  have htd := hI.finishedEmpty hfin
  have htp := hI.drain (by rw [hfin]; rfl)
  have hall : allNodes (exec C ms) = recNodes (exec C ms) := by
    simp [allNodes, handles, hk, htd, htp]
  refine ⟨?_, fun r hr => ⟨(hI.recs r hr).t, (hI.recs r hr).name⟩, hI.total hact⟩
  have hnd := hI.nodup
  rw [hall] at hnd
  rw [show (exec C ms).erec.runs.map RunRecord.node = recNodes (exec C ms) from rfl,
    List.perm_ext_iff_of_nodup hnd hwf.nodup]
  intro n
  constructor
  · intro h; exact hI.inNodes n (by rw [hall]; exact h)
  · intro h; have := hI.part hact n h; rw [hall] at this; exact this

/-- In every reachable state, also in an unfinished execution, nothing is recorded twice. -/
theorem C02_no_double_record (C : Cfg) (hwf : C.dag.WF) (ms : List Move) :
    ((recsOf (exec C ms).trace).map RunRecord.node).Nodup ∧
    ∀ r ∈ recsOf (exec C ms).trace, r.node ∈ C.dag.nodes := by
  obtain ⟨hI, hT⟩ := both_exec hwf ms
  rw [hT.recs]
  have hnd := hI.nodup
  unfold allNodes at hnd
  rw [List.append_assoc, List.nodup_append, List.nodup_append] at hnd
  refine ⟨hnd.2.1.1, fun r hr => hI.inNodes _ ?_⟩
  unfold allNodes
  simp only [List.mem_append]
  exact .inl (.inr (List.mem_map_of_mem hr))

example : (exec (Ex.cfg 2) Ex.done2).phase = .finished ∧
    (exec (Ex.cfg 2) Ex.done2).erec.runs.length = 5 := ⟨Ex.fin2, by decide +kernel⟩

/-- **C03**.  At no moment are two tasks with a common resource both executing. -/
theorem C03_resource_exclusivity (C : Cfg) (hwf : C.dag.WF) (ms : List Move)
    (pre post : List Event) (htr : (exec C ms).trace = pre ++ post) (a b : Node)
    (ha : Running pre a) (hb : Running pre b) (hab : a ≠ b) :
    ∀ r ∈ C.resources a, r ∉ C.resources b := by
  have hT := tinv_exec hwf ms
  have := running_prefix (C := C) (P := fun pre => ∀ a b, Running pre a → Running pre b → a ≠ b →
      ∀ r ∈ C.resources a, r ∉ C.resources b) ?_ ?_ hT pre post htr
  · exact this a b ha hb hab
  · intro a b ha; obtain ⟨⟨_, h⟩, _⟩ := ha; cases h
  · intro pre e hg ih a b ha hb hab r hr hr'
    rcases running_snoc ha with h1 | ⟨x, rfl⟩
    · rcases running_snoc hb with h2 | ⟨y, rfl⟩
      · exact ih a b h1 h2 hab r hr hr'
      · exact (hg.2.2.2.1 a h1).2 r hr' hr
    · rcases running_snoc hb with h2 | ⟨y, hy⟩
      · exact (hg.2.2.2.1 b h2).2 r hr hr'
      · injection hy with h _; exact hab h

/-- Three independent jobs on three threads: 1 and 2 share a resource, 3 does not. -/
def Ex.par (tc : Nat) : Cfg :=
  { dag := { nodes := [3, 2, 1], edges := [], name := fun _ => [], task := fun n => n }
    resources := fun n => if n = 3 then [] else [7]
    hasJob := fun _ => true
    ask := fun _ => .answer { invalidated := true, log := [] }
    outcome := fun _ => Ex.ret 0 []
    threadCount := tc }

theorem Ex.par_wf (tc : Nat) : (Ex.par tc).dag.WF :=
  ⟨by show [3, 2, 1].Nodup; decide, by intro e he; cases he⟩

/-- a moment at which 1 and 3 really execute at the same time -/
example : ∃ ms, Running (exec (Ex.par 3) ms).trace 1 ∧ Running (exec (Ex.par 3) ms).trace 3 := by
  refine ⟨List.replicate 20 .ctl ++ [.begin 1, .begin 3], ⟨⟨false, ?_⟩, ?_⟩, ⟨false, ?_⟩, ?_⟩ <;>
    · (try simp only [JobEnded]); decide +kernel

/-- **C04**.  At any moment at most `thread_count` jobs execute (one if it is 0); with
`thread_count ≥ 1` no job runs on the control thread, with 0 all do. -/
theorem C04_thread_limit (C : Cfg) (hwf : C.dag.WF) (ms : List Move)
    (pre post : List Event) (htr : (exec C ms).trace = pre ++ post) :
    (∀ l : List Node, l.Nodup → (∀ n ∈ l, Running pre n) →
      l.length ≤ if C.threadCount = 0 then 1 else C.threadCount) ∧
    (∀ n b, .jobBegin n b ∈ pre → (b = true ↔ C.threadCount = 0)) := by
  have hT := tinv_exec hwf ms
  refine running_prefix (C := C) (P := fun pre =>
    (∀ l : List Node, l.Nodup → (∀ n ∈ l, Running pre n) →
      l.length ≤ if C.threadCount = 0 then 1 else C.threadCount) ∧
    (∀ n b, .jobBegin n b ∈ pre → (b = true ↔ C.threadCount = 0))) ?_ ?_ hT pre post htr
  · refine ⟨?_, by simp⟩
    intro l _ h
    cases l with
    | nil => simp
    | cons n l => obtain ⟨⟨_, h⟩, _⟩ := h n (by simp); cases h
  · intro pre e hg ih
    constructor
    · intro l hl hall
      by_cases hx : ∃ n x, e = .jobBegin n x
      · obtain ⟨n, x, rfl⟩ := hx
        have hsub : ∀ m ∈ l.filter (· ≠ n), Running pre m := by
          intro m hm
          simp only [List.mem_filter, decide_eq_true_eq] at hm
          rcases running_snoc (hall m hm.1) with h | ⟨y, hy⟩
          · exact h
          · injection hy with h _; exact absurd h.symm hm.2
        have h1 := hg.2.2.2.2.1 (l.filter (· ≠ n)) (hl.filter _) hsub
        have h2 : l.length ≤ (l.filter (· ≠ n)).length + 1 := by
          have h3 : l.Subperm (n :: l.filter (· ≠ n)) := by
            apply List.subperm_of_subset hl
            intro m hm
            by_cases hmn : m = n
            · simp [hmn]
            · simp [hmn, hm]
          simpa using h3.length_le
        split <;> omega
      · apply ih.1 l hl
        intro m hm
        rcases running_snoc (hall m hm) with h | ⟨y, hy⟩
        · exact h
        · exact absurd ⟨_, _, hy⟩ hx
    · intro n b hm
      rcases List.mem_append.1 hm with hm | hm
      · exact ih.2 n b hm
      · rw [List.mem_singleton] at hm; subst hm; exact hg.2.1

/-- **C04**.  With `thread_count = 0` no job is executing when control is outside the portions of
the control thread (in particular between ticks): jobs run inside `tick()`. -/
theorem C04_sequential (C : Cfg) (hwf : C.dag.WF) (h0 : C.threadCount = 0) (ms : List Move)
    (n : Node) : ¬ Running (exec C ms).trace n := by
  obtain ⟨hI, hT⟩ := both_exec hwf ms
  exact no_running_seq hI hT h0

/-- the limit is reached -/
example : ∃ ms, Running (exec (Ex.par 2) ms).trace 1 ∧ Running (exec (Ex.par 2) ms).trace 3 := by
  refine ⟨List.replicate 20 .ctl ++ [.begin 1, .begin 3], ⟨⟨false, ?_⟩, ?_⟩, ⟨false, ?_⟩, ?_⟩ <;>
    · (try simp only [JobEnded]); decide +kernel

example : JobBegan (exec (Ex.cfg 0) Ex.done0).trace 2 := ⟨true, by decide +kernel⟩

end Joque
