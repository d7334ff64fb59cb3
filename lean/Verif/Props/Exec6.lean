import Verif.Proof.Fair
import Verif.Props.Exec5

/-! # Properties of every execution: it completes -/

namespace Joque

/-- State after the first `i` moves of an infinite schedule. -/
def runSched (C : Cfg) (σ : Nat → Move) : Nat → St
  | 0 => St.init
  | i + 1 => step C (runSched C σ i) (σ i)

theorem runSched_exec (C : Cfg) (σ : Nat → Move) (i : Nat) :
    runSched C σ i = exec C ((List.range i).map σ) := by
  induction i with
  | zero => rfl
  | succ i ih => rw [List.range_succ, List.map_append, exec_append, ← ih]; rfl

/-- A fair schedule of an execution that is neither destroyed nor out of threads or memory, and whose visitor
does not throw: `tick()` is
called again and again, every thread gets to run, every job that begins ends. -/
structure Fair (C : Cfg) (σ : Nat → Move) : Prop where
  ticks : ∀ i, ∃ j, i ≤ j ∧ σ j = .ctl
  begins : ∀ i n, (runSched C σ i).worker n = .queued → ∃ j, i ≤ j ∧ σ j = .begin n
  ends : ∀ i n, (runSched C σ i).worker n = .running → ∃ j, i ≤ j ∧ σ j = .finish n
  noFault : ∀ i, σ i ≠ .ctlFail ∧ σ i ≠ .destroy ∧ ∀ f, σ i ≠ .fault f

theorem fair_from {C : Cfg} (hG : Healthy C) {σ : Nat → Move} (hF : Fair C σ) :
    ∀ p i, (runSched C σ i).phase.active = true → remaining (runSched C σ i) ≤ p →
      ∃ j, i ≤ j ∧ (runSched C σ j).phase = .finished :=
  fair_run (D := fun _ => C) (fun _ => hG) (fun _ => rfl)
    (fun i _ => by rw [runSched_exec]; exact inv_exec hG.wf _) hF.ticks hF.begins hF.ends hF.noFault

/-- **C11**.  If there is no AFTER cycle (and all jobs are set, answer `is_invalidated` and return
a determined code), every fair schedule reaches successful completion – for every dag, resource
assignment and thread count. -/
theorem C11_completes (C : Cfg) (hG : Healthy C) (σ : Nat → Move) (hF : Fair C σ) :
    ∃ i, (runSched C σ i).phase = .finished := by
  have hI : ∀ i, Inv C (runSched C σ i) := fun i => by rw [runSched_exec]; exact inv_exec hG.wf _
  have hstart : ∀ i, runSched C σ i = St.init ∨ ∃ j, (runSched C σ j).phase.active = true := by
    intro i
    induction i with
    | zero => exact .inl rfl
    | succ i ih =>
      rcases ih with ih | ih
      · have hs : runSched C σ (i + 1) = step C St.init (σ i) := by rw [← ih]; rfl
        cases hm : σ i with
        | ctl =>
          right
          refine ⟨i + 1, ?_⟩
          rw [hs, hm]
          show (prologue C St.init).phase.active = true
          rw [prologue_healthy hG]; rfl
        | ctlFail => exact absurd hm (hF.noFault _).1
        | destroy => exact absurd hm (hF.noFault _).2.1
        | fault f => exact absurd hm ((hF.noFault _).2.2 f)
        | begin n => left; rw [hs, hm]; rfl
        | finish n => left; rw [hs, hm]; rfl
      · exact .inr ih
  obtain ⟨j, _, hj⟩ := hF.ticks 0
  have : ∃ i, (runSched C σ i).phase.active = true := by
    rcases hstart j with h | h
    · refine ⟨j + 1, ?_⟩
      rw [show runSched C σ (j + 1) = step C (runSched C σ j) (σ j) from rfl, h, hj]
      show (prologue C St.init).phase.active = true
      rw [prologue_healthy hG]; rfl
    · exact h
  obtain ⟨i, hi⟩ := this
  obtain ⟨k, _, hk⟩ := fair_from hG hF _ i hi (Nat.le_refl _)
  exact ⟨k, hk⟩

/-- **C11**, no deadlock: from every reachable state of a healthy execution that has not been
destroyed and has not failed, successful completion can still be reached. -/
theorem C11_no_deadlock (C : Cfg) (hG : Healthy C) (ms : List Move)
    (hact : (exec C ms).phase.active = true ∨ (exec C ms).phase = .created) :
    ∃ ms', (exec C (ms ++ ms')).phase = .finished := by
  have key : ∀ p q ms, (exec C ms).phase.active = true → remaining (exec C ms) ≤ p →
      dist (exec C ms) ≤ q → ∃ ms', (exec C (ms ++ ms')).phase = .finished := by
    intro p
    induction p using Nat.strongRecOn with
    | ind p ihp =>
    intro q
    induction q with
    | zero =>
      intro ms hact hp hq
      exact aux C hG ms p 0 hact hp hq (fun p' hp' ms' => ihp p' hp' (dist (exec C ms')) ms')
        (fun q' hq' => by omega)
    | succ q ihq =>
      intro ms hact hp hq
      exact aux C hG ms p (q + 1) hact hp hq (fun p' hp' ms' => ihp p' hp' (dist (exec C ms')) ms')
        (fun q' hq' ms' h1 h2 h3 => ihq ms' h1 h2 (by omega))
  rcases hact with hact | hc
  · exact key _ _ ms hact (Nat.le_refl _) (Nat.le_refl _)
  · have h1 : exec C (ms ++ [.ctl]) = prologue C St.init := by
      rw [exec_append, (inv_exec hG.wf ms).createdInit hc]; rfl
    obtain ⟨ms', h⟩ := key _ _ (ms ++ [.ctl]) (by rw [h1, prologue_healthy hG]; rfl)
      (Nat.le_refl _) (Nat.le_refl _)
    exact ⟨.ctl :: ms', by simpa using h⟩
where
  aux (C : Cfg) (hG : Healthy C) (ms : List Move) (p q : Nat)
      (hact : (exec C ms).phase.active = true) (hp : remaining (exec C ms) ≤ p)
      (hq : dist (exec C ms) ≤ q)
      (ihp : ∀ p' < p, ∀ ms', (exec C ms').phase.active = true → remaining (exec C ms') ≤ p' →
        dist (exec C ms') ≤ dist (exec C ms') → ∃ ms'', (exec C (ms' ++ ms'')).phase = .finished)
      (ihq : ∀ q' < q, ∀ ms', (exec C ms').phase.active = true → remaining (exec C ms') ≤ p →
        dist (exec C ms') ≤ q' → ∃ ms'', (exec C (ms' ++ ms'')).phase = .finished) :
      ∃ ms', (exec C (ms ++ ms')).phase = .finished := by
    by_cases hf : (exec C ms).phase = .finished
    · exact ⟨[], by simpa using hf⟩
    have hI := inv_exec hG.wf ms
    have go : ∀ m, (step C (exec C ms) m).phase.active = true →
        (remaining (step C (exec C ms) m) < remaining (exec C ms) ∨
          (remaining (step C (exec C ms) m) = remaining (exec C ms) ∧
            dist (step C (exec C ms) m) < dist (exec C ms))) →
        ∃ ms', (exec C (ms ++ ms')).phase = .finished := by
      intro m h1 h2
      have he : exec C (ms ++ [m]) = step C (exec C ms) m := by rw [exec_append]; rfl
      rw [← he] at h1 h2
      have : ∃ ms'', (exec C (ms ++ [m] ++ ms'')).phase = .finished := by
        rcases h2 with h2 | ⟨h2, h3⟩
        · exact ihp _ (by omega) _ h1 (Nat.le_refl _) (Nat.le_refl _)
        · exact ihq _ (by omega) _ h1 (by omega) (Nat.le_refl _)
      obtain ⟨ms'', h⟩ := this
      exact ⟨m :: ms'', by simpa using h⟩
    by_cases hs : Settled (exec C ms)
    · obtain ⟨p1, p2⟩ := ctl_progress hG hI hact hf
      refine go .ctl p1 ?_
      rcases p2 with p2 | ⟨p2, _, p4⟩
      · exact .inl p2
      · exact .inr ⟨p2, p4 hs⟩
    · unfold Settled at hs
      simp only [not_forall, not_or] at hs
      obtain ⟨n, h1, h2⟩ := hs
      have hw := worker_progress hI hact n
      cases h : (exec C ms).worker n with
      | idle => exact absurd h h1
      | finished => exact absurd h h2
      | queued =>
        obtain ⟨p1, p2⟩ := hw.1 h
        exact go (.begin n) (by rw [p1]; exact hact) (.inl p2)
      | running =>
        obtain ⟨p1, p2⟩ := hw.2.2.1 h
        exact go (.finish n) (by rw [p1]; exact hact) (.inl p2)

/-- number of calls of `tick()` -/
def ticks (tr : List Event) : Nat := tr.countP (· = .resumed)

/-- with `thread_count = 0`, how ticks relate to progress -/
def SeqInv (C : Cfg) (s : St) : Prop :=
  match s.phase with
  | .created => s = St.init
  | .loopTop => ticks s.trace = s.erec.runs.length + 1 + s.todo.length ∧
      (s.todo = [] → s.erec.runs = [])
  | .clean d => ticks s.trace = s.erec.runs.length + 1 + s.todo.length ∧ s.kept = []
  | .pick => ticks s.trace = s.erec.runs.length + 1 ∧ s.todo = []
  | .susp d => ticks s.trace = s.erec.runs.length + 1 ∧ s.todo.length = if d then 0 else 1
  | .drainTop => (s.todo ≠ [] → ticks s.trace = s.erec.runs.length + 1 + s.todo.length) ∧
      (s.todo = [] → ticks s.trace = s.erec.runs.length + 2 ∨
        (s.erec.runs = [] ∧ ticks s.trace = 1))
  | .finished => ticks s.trace = s.erec.runs.length + 2 ∨
        (s.erec.runs = [] ∧ ticks s.trace = 1)
  | _ => False

theorem ticks_prologue {C : Cfg} (hwf : C.dag.WF) : ticks (prologue C St.init).trace = 1 := by
  have hE : ∀ l : List Node, (l.map Event.nodeEnque).countP (· = .resumed) = 0 := by
    intro l; simp [List.countP_eq_zero]
  rcases prologue_spec hwf with ⟨_, c, _, _, ht⟩ | ⟨_, _, _, evs, ht, h4, _⟩ |
      ⟨_, pre, n, post, _, _, _, ht, _⟩
  · rw [ht, ticks, List.countP_append, List.countP_cons, hE]; rfl
  · rw [ht, ticks, List.countP_append, List.countP_cons, hE, List.countP_append]
    have : evs.countP (· = .resumed) = 0 := by
      rw [List.countP_eq_zero]
      intro e he
      obtain ⟨n, m, rfl, _⟩ := h4 e he
      simp
    rw [this]
    simp [List.countP_eq_zero]
  · rw [ht, ticks, List.countP_append, List.countP_cons, hE]
    simp [List.countP_eq_zero]

theorem seq_exec {C : Cfg} (hG : Healthy C) (h0 : C.threadCount = 0) :
    ∀ k, SeqInv C (exec C (List.replicate k .ctl)) ∨
      (exec C (List.replicate k .ctl)).phase = .ub := by
  intro k
  induction k with
  | zero => left; rfl
  | succ k ih =>
    have he : exec C (List.replicate (k + 1) .ctl) =
        ctlStep C (exec C (List.replicate k .ctl)) true := by
      rw [List.replicate_succ', exec_append]; rfl
    rw [he]
    have hI := inv_exec hG.wf (List.replicate k .ctl)
    generalize exec C (List.replicate k .ctl) = s at ih hI
    clear he
    rcases ih with ih | ih
    · unfold SeqInv at ih
      split at ih <;> rename_i hp
      · left
        subst ih
        have h1 : (prologue C St.init).phase = .loopTop := prologue_healthy hG
        obtain ⟨t1, t2, _, _, t5⟩ := prologue_todo (C := C)
        show SeqInv C (prologue C St.init)
        unfold SeqInv
        rw [h1]
        simp only
        rw [ticks_prologue hG.wf, t5, t1]
        simp
      · left
        obtain ⟨hk, _⟩ := hI.notClean (by rw [hp]; rfl) (by rw [hp]; rfl)
        simp only [ctlStep, hp]
        split
        · unfold SeqInv
          simp only
          refine ⟨fun _ => ih.1, fun hte => .inr ⟨ih.2 hte, ?_⟩⟩
          rw [ih.1, ih.2 hte, hte]; rfl
        · unfold SeqInv
          simp only [St.emit]
          refine ⟨?_, hk⟩
          rw [← ih.1]; simp [ticks]
      · left
        rename_i d
        simp only [ctlStep, hp]
        cases ht : s.todo with
        | nil =>
          unfold cleanStep
          rw [ht]
          simp only [ih.2, List.zipWith_nil_right]
          rw [ht] at ih
          cases d
          · unfold SeqInv; simp only [Bool.false_eq_true, if_false]
            exact ⟨by simpa using ih.1, trivial⟩
          · unfold SeqInv; simp only [if_true]
            exact ⟨by simpa using ih.1, by simp⟩
        | cons sl rest =>
          obtain ⟨c1, _, c3⟩ := ctl_clean hG hI hp ht
          obtain ⟨a1, a2, a3, a4, a5⟩ := c3 h0
          unfold SeqInv
          rw [c1]
          simp only
          rw [a1, a2, a4]
          refine ⟨?_, ih.2⟩
          unfold ticks at ih ⊢
          rw [a5, ih.1, ht]
          simp; omega
      · left
        obtain ⟨c1, c2, c3, _, c5⟩ := pick_cases hG hI hp
        simp only [ctlStep, hp]
        unfold SeqInv
        rw [c1]
        simp only [Bool.false_eq_true, if_false]
        rw [c2, c3]
        refine ⟨ih.1, ?_⟩
        rcases c5 with ⟨_, c5⟩ | ⟨_, c5⟩
        · rw [c5, ih.2]; rfl
        · exact absurd ih.2 c5
      · left
        rename_i d
        simp only [ctlStep, hp]
        unfold SeqInv
        cases d
        · simp only [Bool.false_eq_true, if_false] at ih ⊢
          simp only [St.emit]
          refine ⟨?_, fun h => by rw [h] at ih; simp at ih⟩
          rw [ih.2, ticks, List.countP_append]
          have := ih.1; unfold ticks at this; rw [this]; rfl
        · simp only [if_true] at ih ⊢
          simp only [St.emit]
          have hte : s.todo = [] := List.length_eq_zero_iff.1 ih.2
          refine ⟨fun h => absurd hte h, fun _ => .inl ?_⟩
          rw [ticks, List.countP_append]
          have := ih.1; unfold ticks at this; rw [this]; rfl
      · left
        obtain ⟨hk, _⟩ := hI.notClean (by rw [hp]; rfl) (by rw [hp]; rfl)
        simp only [ctlStep, hp]
        split
        · rename_i hte
          unfold SeqInv
          simp only [St.emit]
          have := ih.2 hte
          unfold ticks at this ⊢
          simpa [List.countP_append] using this
        · rename_i hte
          unfold SeqInv
          simp only
          exact ⟨ih.1 hte, hk⟩
      · right; simp [ctlStep, hp]
      · exact absurd ih id
    · right; simp [ctlStep, ih]

/-- **C11**, on the control thread (`thread_count = 0`): calling `tick()` repeatedly reaches
completion, and the number of ticks is exactly the number of tasks plus two (one for an empty
dag). -/
theorem C11_ticks_sequential (C : Cfg) (hG : Healthy C) (h0 : C.threadCount = 0) :
    ∃ k, (exec C (List.replicate k .ctl)).phase = .finished ∧
      ticks (exec C (List.replicate k .ctl)).trace =
        if C.dag.nodes = [] then 1 else C.dag.nodes.length + 2 := by
  by_cases hne : C.dag.nodes = []
  · have h1 : (prologue C St.init).phase = .loopTop := prologue_healthy hG
    obtain ⟨t1, t2, t3, t4, t5⟩ := prologue_todo (C := C)
    have hI : Inv C (prologue C St.init) := inv_exec hG.wf [.ctl]
    have htp : (prologue C St.init).toProcess = [] := by
      rw [List.eq_nil_iff_forall_not_mem]
      intro n hn
      have := hI.inNodes n (by unfold allNodes; simp [hn])
      rw [hne] at this; cases this
    have e : exec C (List.replicate 3 .ctl) =
        ctlStep C (ctlStep C (prologue C St.init) true) true := rfl
    have e2 : ctlStep C (prologue C St.init) true =
        { prologue C St.init with phase := .drainTop } := by
      simp [ctlStep, h1, htp]
    refine ⟨3, ?_⟩
    rw [e, e2]
    simp only [ctlStep, t1, if_true, hne]
    refine ⟨trivial, ?_⟩
    have := ticks_prologue hG.wf
    unfold ticks at this ⊢
    simp [St.emit, List.countP_append, this]
  have hF : Fair C (fun _ => .ctl) := by
    refine ⟨fun i => ⟨i, Nat.le_refl _, rfl⟩, ?_, ?_, by simp⟩
    · intro i n h
      rw [runSched_exec] at h
      rw [(inv_exec hG.wf _).seq h0 n] at h; cases h
    · intro i n h
      rw [runSched_exec] at h
      rw [(inv_exec hG.wf _).seq h0 n] at h; cases h
  obtain ⟨k, hk⟩ := C11_completes C hG _ hF
  rw [runSched_exec] at hk
  have hrep : (List.range k).map (fun _ => Move.ctl) = List.replicate k .ctl := by
    rw [List.map_const']; simp
  rw [hrep] at hk
  refine ⟨k, hk, ?_⟩
  have hperm := (C02_one_record C hG.wf _ hk).1
  have hlen : (exec C (List.replicate k .ctl)).erec.runs.length = C.dag.nodes.length := by
    have := hperm.length_eq; simpa using this
  have hfrom := seq_exec hG h0 k
  rw [hk] at hfrom
  simp only [reduceCtorEq, or_false] at hfrom
  unfold SeqInv at hfrom
  rw [hk] at hfrom
  simp only at hfrom
  rw [if_neg hne]
  rcases hfrom with h | ⟨h, _⟩
  · rw [h, hlen]
  · rw [h] at hlen
    exact absurd (List.length_eq_zero_iff.1 hlen.symm) hne

theorem Ex.healthy (tc : Nat) : Healthy (Ex.cfg tc) where
  wf := Ex.wf tc
  acyclic := fun hc => ((C09_exact (Ex.cfg 2) (Ex.wf 2) Ex.done2).2 hc).1 Ex.fin2
  jobs := fun _ _ => rfl
  answers := fun _ _ => ⟨_, rfl⟩
  codes := by
    intro n _ rr h
    simp only [Ex.cfg] at h
    split at h <;> · cases h; simp

/-- one round: a tick, then every thread begins, then every job ends -/
def roundMoves (C : Cfg) : List Move :=
  .ctl :: (C.dag.nodes.map .begin ++ C.dag.nodes.map .finish)

/-- the round-robin schedule -/
def roundRobin (C : Cfg) (i : Nat) : Move :=
  (roundMoves C).getD (i % (roundMoves C).length) .ctl

theorem roundRobin_hits (C : Cfg) {m : Move} (hm : m ∈ roundMoves C) (i : Nat) :
    ∃ j, i ≤ j ∧ roundRobin C j = m := by
  obtain ⟨k, hk, rfl⟩ := List.getElem_of_mem hm
  refine ⟨k + (roundMoves C).length * i, ?_, ?_⟩
  · have : 1 ≤ (roundMoves C).length := by omega
    have := Nat.mul_le_mul_right i this
    omega
  · unfold roundRobin
    rw [Nat.add_mul_mod_self_left, Nat.mod_eq_of_lt hk]
    simp [hk]

/-- the hypothesis of `C11_completes` is met for every dag: the round-robin schedule is fair -/
theorem roundRobin_fair (C : Cfg) (hwf : C.dag.WF) : Fair C (roundRobin C) := by
  have hw : ∀ i n, (runSched C (roundRobin C) i).worker n ≠ .idle → n ∈ C.dag.nodes := by
    intro i n h
    rw [runSched_exec] at h
    have hI := inv_exec hwf ((List.range i).map (roundRobin C))
    rcases hI.workerOnly n h with ⟨h1, _⟩ | ⟨x, h1, rfl, _⟩
    · exact hI.inNodes n (by unfold allNodes; simp [h1])
    · exact hI.inNodes _ (by unfold allNodes; simp only [List.mem_append]; exact .inl (.inl (List.mem_map_of_mem h1)))
  refine ⟨fun i => roundRobin_hits C (by simp [roundMoves]) i, ?_, ?_, ?_⟩
  · intro i n h
    exact roundRobin_hits C (by simp [roundMoves, hw i n (by rw [h]; simp)]) i
  · intro i n h
    exact roundRobin_hits C (by simp [roundMoves, hw i n (by rw [h]; simp)]) i
  · intro i
    have hmem : roundRobin C i ∈ roundMoves C := by
      unfold roundRobin
      have : i % (roundMoves C).length < (roundMoves C).length :=
        Nat.mod_lt _ (by simp [roundMoves])
      simp [this]
    refine ⟨?_, ?_, fun k => ?_⟩ <;> intro h <;> rw [h] at hmem <;> simp [roundMoves] at hmem

example : ∃ i, (runSched (Ex.cfg 2) (roundRobin (Ex.cfg 2)) i).phase = .finished :=
  C11_completes _ (Ex.healthy 2) _ (roundRobin_fair _ (Ex.wf 2))

example : ∃ k, (exec (Ex.cfg 0) (List.replicate k .ctl)).phase = .finished ∧
    ticks (exec (Ex.cfg 0) (List.replicate k .ctl)).trace = 7 :=
  C11_ticks_sequential _ (Ex.healthy 0) rfl

end Joque
