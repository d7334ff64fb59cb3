import Verif.Props.Fine
import Verif.Props.Exec6

/-! # Executions whose callbacks are made one by one come to their end -/

namespace Joque

/-- State after the first `i` steps of an infinite schedule of single calls. -/
def frun (C : Cfg) (σ : Nat → FMove) : Nat → FSt
  | 0 => FSt.init
  | i + 1 => fstep C (frun C σ i) (σ i)

theorem frun_fexec (C : Cfg) (σ : Nat → FMove) (i : Nat) :
    frun C σ i = fexec C ((List.range i).map σ) := by
  induction i with
  | zero => rfl
  | succ i ih =>
    rw [List.range_succ, List.map_append, fexec, List.foldl_append]
    change fstep C (frun C σ i) (σ i) = fstep C (fexec C _) (σ i)
    rw [ih]

/-- A fair schedule of single calls, without destruction, failures or exceptions: the control thread goes on
again and again (it makes the next call of its portion, or is ticked when it made them all), every thread
that was created gets to run, every job that began ends. -/
structure FFair (C : Cfg) (σ : Nat → FMove) : Prop where
  goes : ∀ i, ∃ j, i ≤ j ∧
    σ j = if (frun C σ j).pend = [] then FMove.move .ctl else .next
  begins : ∀ i n, .launch n ∈ (frun C σ i).seen → (frun C σ i).s.worker n = .queued →
    ∃ j, i ≤ j ∧ σ j = .move (.begin n)
  ends : ∀ i n, (frun C σ i).s.worker n = .running → ∃ j, i ≤ j ∧ σ j = .move (.finish n)
  noFault : ∀ i, σ i ≠ .move .ctlFail ∧ σ i ≠ .move .destroy ∧ ∀ f, σ i ≠ .move (.fault f)

theorem seen_step (C : Cfg) (f : FSt) (m : FMove) : f.seen <+: (fstep C f m).seen := by
  have hw : ∀ n m, f.seen <+: (fworker C f n m).seen := by
    intro n m; unfold fworker; split <;> simp
  rcases m with _ | m
  · simp only [fstep]; split <;> simp
  · cases m <;> simp only [fstep] <;> first | exact hw _ _ | (split <;> simp)

theorem seen_mono (C : Cfg) (σ : Nat → FMove) (i k : Nat) :
    (frun C σ i).seen <+: (frun C σ (i + k)).seen := by
  induction k with
  | zero => simp
  | succ k ih => exact ih.trans (seen_step C _ _)

/-- A thread is created at most once. -/
theorem launch_not_again (hwf : C.dag.WF) (σ : Nat → FMove) (i : Nat) (n : Node)
    (h : .launch n ∈ (frun C σ i).seen) : .launch n ∉ (frun C σ i).pend := by
  intro hp
  rw [frun_fexec] at h hp
  have hf := finv_exec hwf ((List.range i).map σ)
  obtain ⟨ms, hs⟩ := hf.moves
  have hl := hf.reord.life n
  rw [hs, life_append] at hl
  have h1 := launch_mem_life.1 h
  have h2 := launch_mem_life.1 hp
  have hnd : (life n (exec C ms).trace).Nodup := by
    rcases C15_node_history C hwf ms n with hc | ⟨_, hc⟩ | ⟨_, hc⟩ <;>
      exact List.Nodup.sublist hc.sublist (by decide)
  rw [← hl] at hnd
  exact (List.nodup_append.1 hnd).2.2 _ h1 _ h2 rfl

theorem launch_seen (hwf : C.dag.WF) (σ : Nat → FMove) (i : Nat) (n : Node)
    (h : (frun C σ i).s.worker n = .queued ∨ (frun C σ i).s.worker n = .running) :
    .launch n ∈ (frun C σ i).seen ∨ .launch n ∈ (frun C σ i).pend := by
  rw [frun_fexec] at h ⊢
  have hf := finv_exec hwf ((List.range i).map σ)
  obtain ⟨ms, hs⟩ := hf.moves
  obtain ⟨hI, hT⟩ := both_exec hwf ms
  rw [← hs] at hI hT
  have hl := live_life hI hT h
  rw [← hf.reord.life n] at hl
  rw [← List.mem_append, launch_mem_life, hl]
  rcases h with h | h <;> rw [h] <;> simp [workerLife]

/-- What has begun was created before. -/
theorem running_seen (hwf : C.dag.WF) (σ : Nat → FMove) (i : Nat) (n : Node)
    (h : (frun C σ i).s.worker n = .running) : .launch n ∈ (frun C σ i).seen := by
  rcases launch_seen hwf σ i n (.inr h) with h1 | h1
  · exact h1
  exfalso
  rw [frun_fexec] at h h1
  have hf := finv_exec hwf ((List.range i).map σ)
  obtain ⟨ms, hs⟩ := hf.moves
  obtain ⟨hI, hT⟩ := both_exec hwf ms
  rw [← hs] at hI hT
  have hc0 : C.threadCount ≠ 0 := fun h0 => by rw [hI.seq h0 n] at h; simp at h
  have hl := live_life hI hT (.inr h)
  rw [← hf.reord.life n, h, life_append] at hl
  have hne : life n (fexec C ((List.range i).map σ)).pend ≠ [] := fun h0 => by
    have := launch_mem_life.1 h1
    rw [h0] at this; simp at this
  obtain ⟨e, he, ht⟩ := List.mem_filterMap.1 (mem_of_suffix (x := [Tag.before, .launch]) hl hne)
  have hj := hf.jobs hc0 e he
  cases e <;> simp [tagOf, Event.isJob] at ht hj

/-- Calls are made: while some are left, nothing else happens to them until the next one is made. -/
theorem FFair.drains {σ : Nat → FMove} (hF : FFair C σ) (i : Nat) (hne : (frun C σ i).pend ≠ []) :
    ∃ k, σ (i + k) = .next ∧ (∀ l, l < k → σ (i + l) ≠ .next) ∧
      ∀ l, l ≤ k → (frun C σ (i + l)).pend = (frun C σ i).pend := by
  obtain ⟨j, hj, hm⟩ := hF.goes i
  obtain ⟨d, rfl⟩ := Nat.exists_eq_add_of_le hj
  clear hj
  have hstay : σ i ≠ .next → (frun C σ (i + 1)).pend = (frun C σ i).pend := by
    intro h
    change (fstep C (frun C σ i) (σ i)).pend = _
    cases hs : σ i with
    | next => exact absurd hs h
    | move m =>
      cases m <;> simp only [fstep, fworker] <;> split <;> simp_all
  induction d generalizing i with
  | zero =>
    rw [Nat.add_zero, if_neg hne] at hm
    exact ⟨0, by simpa using hm, by simp, by simp⟩
  | succ d ih =>
    by_cases hn : σ i = .next
    · exact ⟨0, by simpa using hn, by simp, by simp⟩
    have h1 := hstay hn
    have e : i + (d + 1) = (i + 1) + d := by omega
    rw [e] at hm
    obtain ⟨k, hk1, hk2, hk3⟩ := ih (i + 1) (by rw [h1]; exact hne) hm (by
      intro h
      have hne' : (frun C σ (i + 1)).pend ≠ [] := by rw [h1]; exact hne
      change (fstep C (frun C σ (i + 1)) (σ (i + 1))).pend = _
      cases hs : σ (i + 1) with
      | next => exact absurd hs h
      | move m =>
        cases m <;> simp only [fstep, fworker] <;> split <;> simp_all)
    refine ⟨k + 1, ?_, ?_, ?_⟩
    · rw [← hk1]; congr 1; omega
    · intro l hl
      cases l with
      | zero => simpa using hn
      | succ l => have := hk2 l (by omega); rwa [show i + 1 + l = i + (l + 1) by omega] at this
    · intro l hl
      cases l with
      | zero => rfl
      | succ l =>
        have := hk3 l (by omega)
        rw [show i + 1 + l = i + (l + 1) by omega] at this
        rw [this, h1]

/-- The control thread is ticked again and again. -/
theorem FFair.ticks {σ : Nat → FMove} (hF : FFair C σ) (i : Nat) :
    ∃ j, i ≤ j ∧ (frun C σ j).pend = [] ∧ σ j = .move .ctl := by
  have key : ∀ p i, (frun C σ i).pend.length ≤ p → ∃ j, i ≤ j ∧ (frun C σ j).pend = [] := by
    intro p
    induction p with
    | zero => intro i h; exact ⟨i, Nat.le_refl _, List.length_eq_zero_iff.1 (by omega)⟩
    | succ p ih =>
      intro i h
      by_cases hne : (frun C σ i).pend = []
      · exact ⟨i, Nat.le_refl _, hne⟩
      obtain ⟨k, hk1, _, hk3⟩ := hF.drains i hne
      have hlen : (frun C σ (i + k + 1)).pend.length ≤ p := by
        change (fstep C (frun C σ (i + k)) (σ (i + k))).pend.length ≤ p
        have := hk3 k (Nat.le_refl _)
        rw [hk1, fstep]
        split
        · simp_all
        · rename_i e es he
          rw [← this, he] at h
          simpa using h
      obtain ⟨j, hj, h0⟩ := ih _ hlen
      exact ⟨j, by omega, h0⟩
  obtain ⟨a, ha, h0⟩ := key _ i (Nat.le_refl _)
  obtain ⟨j, hj, hm⟩ := hF.goes a
  obtain ⟨d, rfl⟩ := Nat.exists_eq_add_of_le hj
  -- the first step of the control thread after `a` is a tick
  clear hj
  induction d generalizing a with
  | zero => exact ⟨a, ha, h0, by simpa [h0] using hm⟩
  | succ d ih =>
    by_cases hc : σ a = .move .ctl
    · exact ⟨a, ha, h0, hc⟩
    have h1 : (frun C σ (a + 1)).pend = [] := by
      change (fstep C (frun C σ a) (σ a)).pend = _
      obtain ⟨n1, n2, n3⟩ := hF.noFault a
      cases hs : σ a with
      | next => rw [fstep, h0]; exact h0
      | move m =>
        cases m with
        | ctl => exact absurd hs hc
        | ctlFail => exact absurd hs n1
        | destroy => exact absurd hs n2
        | fault f => exact absurd hs (n3 f)
        | begin n => simp only [fstep, fworker]; split <;> simp_all
        | finish n => simp only [fstep, fworker]; split <;> simp_all
    exact ih (a + 1) (by omega) h1 (by rw [show a + 1 + d = a + (d + 1) by omega]; exact hm)

/-- A thread in the queue that is still to be created is created. -/
theorem FFair.created (hwf : C.dag.WF) {σ : Nat → FMove} (hF : FFair C σ) (n : Node) :
    ∀ i, (frun C σ i).s.worker n = .queued →
      ∃ j, i ≤ j ∧ .launch n ∈ (frun C σ j).seen ∧ (frun C σ j).s.worker n = .queued := by
  have key : ∀ p i, (frun C σ i).pend.length ≤ p → (frun C σ i).s.worker n = .queued →
      ∃ j, i ≤ j ∧ .launch n ∈ (frun C σ j).seen ∧ (frun C σ j).s.worker n = .queued := by
    intro p
    induction p with
    | zero =>
      intro i h hq
      rcases launch_seen hwf σ i n (.inl hq) with h1 | h1
      · exact ⟨i, Nat.le_refl _, h1, hq⟩
      · rw [List.length_eq_zero_iff.1 (Nat.le_zero.1 h)] at h1; simp at h1
    | succ p ih =>
      intro i h hq
      rcases launch_seen hwf σ i n (.inl hq) with h1 | h1
      · exact ⟨i, Nat.le_refl _, h1, hq⟩
      have hne : (frun C σ i).pend ≠ [] := fun h0 => by rw [h0] at h1; simp at h1
      obtain ⟨k, hk1, hk2, hk3⟩ := hF.drains i hne
      have hq' : ∀ l, l ≤ k → (frun C σ (i + l)).s.worker n = .queued := by
        intro l hl
        induction l with
        | zero => exact hq
        | succ l ihl =>
          have hl' := ihl (by omega)
          have hp := hk3 l (by omega)
          have hn := hk2 l (by omega)
          change (fstep C (frun C σ (i + l)) (σ (i + l))).s.worker n = _
          have hin : .launch n ∈ (frun C σ (i + l)).pend := by rw [hp]; exact h1
          have hne' : (frun C σ (i + l)).pend ≠ [] := by rw [hp]; exact hne
          have hw : ∀ m a, (a = .begin m ∨ a = .finish m) →
              (fworker C (frun C σ (i + l)) m a).s.worker n = .queued := by
            intro m a ha
            unfold fworker
            split
            · exact hl'
            · rename_i hni
              have hmn : n ≠ m := fun h => hni (h ▸ hin)
              rcases ha with rfl | rfl <;> simp only [step] <;> split
              · exact hl'
              · split
                · simp only [setWorker, if_neg hmn]; exact hl'
                · exact hl'
              · exact hl'
              · split
                · simp only [setWorker, if_neg hmn]; exact hl'
                · exact hl'
          cases hs : σ (i + l) with
          | next => exact absurd hs hn
          | move m =>
            cases m with
            | begin m => exact hw m _ (.inl rfl)
            | finish m => exact hw m _ (.inr rfl)
            | _ => simp only [fstep, if_neg hne']; exact hl'
      have hlen : (frun C σ (i + k + 1)).pend.length ≤ p := by
        change (fstep C (frun C σ (i + k)) (σ (i + k))).pend.length ≤ p
        have := hk3 k (Nat.le_refl _)
        rw [hk1, fstep]
        split
        · simp_all
        · rename_i e es he
          rw [← this, he] at h
          simpa using h
      have hq1 : (frun C σ (i + k + 1)).s.worker n = .queued := by
        change (fstep C (frun C σ (i + k)) (σ (i + k))).s.worker n = _
        have := hq' k (Nat.le_refl _)
        rw [hk1, fstep]
        split <;> exact this
      obtain ⟨j, hj, h2⟩ := ih _ hlen hq1
      exact ⟨j, by omega, h2⟩
  exact fun i => key _ i (Nat.le_refl _)

/-! ## The schedule of whole portions -/

/-- a move that changes nothing -/
def idleMove (s : St) : Move := if s.worker 0 = .queued then .finish 0 else .begin 0

theorem idleMove_step (C : Cfg) (s : St) : step C s (idleMove s) = s := by
  unfold idleMove
  split <;> rename_i h <;> simp [step, h]

/-- the move of `Model/Exec` a step of single calls amounts to -/
def coarse (f : FSt) : FMove → Move
  | .next => idleMove f.s
  | .move (.begin n) => if .launch n ∈ f.pend then idleMove f.s else .begin n
  | .move (.finish n) => if .launch n ∈ f.pend then idleMove f.s else .finish n
  | .move m => if f.pend = [] then m else idleMove f.s

theorem coarse_step (C : Cfg) (f : FSt) (m : FMove) : (fstep C f m).s = step C f.s (coarse f m) := by
  rcases m with _ | m
  · simp only [fstep, coarse, idleMove_step]; split <;> rfl
  · cases m <;> simp only [fstep, fworker, coarse] <;> split <;> simp [idleMove_step]

theorem coarse_run (C : Cfg) (σ : Nat → FMove) (i : Nat) :
    runSched C (fun i => coarse (frun C σ i) (σ i)) i = (frun C σ i).s := by
  induction i with
  | zero => rfl
  | succ i ih =>
    change step C (runSched C _ i) _ = (fstep C (frun C σ i) (σ i)).s
    rw [ih, coarse_step]

theorem FFair.coarse (hwf : C.dag.WF) {σ : Nat → FMove} (hF : FFair C σ) :
    Fair C (fun i => coarse (frun C σ i) (σ i)) := by
  refine ⟨?_, ?_, ?_, ?_⟩
  · intro i
    obtain ⟨j, hj, h0, hm⟩ := hF.ticks i
    exact ⟨j, hj, by simp [Joque.coarse, hm, h0]⟩
  · intro i n hq
    rw [coarse_run] at hq
    obtain ⟨k, hk, h1, h2⟩ := hF.created hwf n i hq
    obtain ⟨j, hj, hm⟩ := hF.begins k n h1 h2
    obtain ⟨d, rfl⟩ := Nat.exists_eq_add_of_le hj
    have := launch_not_again hwf σ (k + d) n ((seen_mono C σ k d).subset h1)
    exact ⟨k + d, by omega, by simp [Joque.coarse, hm, this]⟩
  · intro i n hr
    rw [coarse_run] at hr
    obtain ⟨j, hj, hm⟩ := hF.ends i n hr
    obtain ⟨d, rfl⟩ := Nat.exists_eq_add_of_le hj
    have := launch_not_again hwf σ (i + d) n
      ((seen_mono C σ i d).subset (running_seen hwf σ i n hr))
    exact ⟨i + d, hj, by simp [Joque.coarse, hm, this]⟩
  · intro i
    obtain ⟨n1, n2, n3⟩ := hF.noFault i
    have hidle : ∀ s, idleMove s ≠ .ctlFail ∧ idleMove s ≠ .destroy ∧ ∀ f, idleMove s ≠ .fault f := by
      intro s; unfold idleMove; split <;> simp
    cases hs : σ i with
    | next => exact hidle _
    | move m =>
      cases m with
      | ctlFail => exact absurd hs n1
      | destroy => exact absurd hs n2
      | fault f => exact absurd hs (n3 f)
      | ctl => simp only [Joque.coarse]; split <;> first | exact hidle _ | simp
      | begin n => simp only [Joque.coarse]; split <;> first | exact hidle _ | simp
      | finish n => simp only [Joque.coarse]; split <;> first | exact hidle _ | simp

/-- **C95**.  Also if jobs go on between any two callbacks, an execution without AFTER cycle comes to its end
under every fair schedule, and then makes all the calls it still has to make. -/
theorem C95_completes (C : Cfg) (hG : Healthy C) (σ : Nat → FMove) (hF : FFair C σ) :
    ∃ i, (frun C σ i).s.phase = .finished ∧ (frun C σ i).pend = [] := by
  obtain ⟨i, hi⟩ := C11_completes C hG _ (hF.coarse hG.wf)
  rw [coarse_run] at hi
  have key : ∀ p i, (frun C σ i).pend.length ≤ p → (frun C σ i).s.phase = .finished →
      ∃ i, (frun C σ i).s.phase = .finished ∧ (frun C σ i).pend = [] := by
    intro p
    induction p with
    | zero => intro i h hf; exact ⟨i, hf, List.length_eq_zero_iff.1 (by omega)⟩
    | succ p ih =>
      intro i h hf
      by_cases hne : (frun C σ i).pend = []
      · exact ⟨i, hf, hne⟩
      obtain ⟨k, hk1, hk2, hk3⟩ := hF.drains i hne
      have hfin : ∀ l, l ≤ k → (frun C σ (i + l)).s.phase = .finished := by
        intro l hl
        induction l with
        | zero => exact hf
        | succ l ihl =>
          have hl' := ihl (by omega)
          have hn := hk2 l (by omega)
          have hne' : (frun C σ (i + l)).pend ≠ [] := by rw [hk3 l (by omega)]; exact hne
          change (fstep C (frun C σ (i + l)) (σ (i + l))).s.phase = _
          rw [coarse_step]
          generalize hf' : frun C σ (i + l) = f at *
          cases hs : σ (i + l) with
          | next => exact absurd hs hn
          | move m =>
            cases m <;> simp only [Joque.coarse, if_neg hne', idleMove_step] <;>
              first
              | exact hl'
              | (split
                 · rw [idleMove_step]; exact hl'
                 · simp only [step]; split
                   · exact hl'
                   · split <;> exact hl')
      have hlen : (frun C σ (i + k + 1)).pend.length ≤ p := by
        change (fstep C (frun C σ (i + k)) (σ (i + k))).pend.length ≤ p
        have := hk3 k (Nat.le_refl _)
        rw [hk1, fstep]
        split
        · simp_all
        · rename_i e es he
          rw [← this, he] at h
          simpa using h
      refine ih (i + k + 1) hlen ?_
      change (fstep C (frun C σ (i + k)) (σ (i + k))).s.phase = _
      have := hfin k (Nat.le_refl _)
      rw [hk1, fstep]
      split <;> exact this
  exact key _ i (Nat.le_refl _) hi

/-! ## Examples -/

/-- a round of single calls: a tick and a call, then every thread begins, then every job ends -/
def froundMoves (C : Cfg) : List FMove :=
  .move .ctl :: .next :: (C.dag.nodes.map (fun n => .move (.begin n))
    ++ C.dag.nodes.map (fun n => .move (.finish n)))

def froundRobin (C : Cfg) (i : Nat) : FMove :=
  (froundMoves C).getD (i % (froundMoves C).length) .next

theorem froundRobin_at (C : Cfg) (k i : Nat) (hk : k < (froundMoves C).length) :
    froundRobin C (k + (froundMoves C).length * i) = (froundMoves C)[k] := by
  unfold froundRobin
  rw [Nat.add_mul_mod_self_left, Nat.mod_eq_of_lt hk]
  simp [hk]

theorem froundRobin_hits (C : Cfg) {m : FMove} (hm : m ∈ froundMoves C) (i : Nat) :
    ∃ j, i ≤ j ∧ froundRobin C j = m := by
  obtain ⟨k, hk, rfl⟩ := List.getElem_of_mem hm
  refine ⟨k + (froundMoves C).length * i, ?_, froundRobin_at C k i hk⟩
  have := Nat.mul_le_mul_right i (show 1 ≤ (froundMoves C).length by omega)
  omega

/-- the hypothesis of `C95_completes` is met for every dag -/
theorem froundRobin_fair (C : Cfg) (hwf : C.dag.WF) : FFair C (froundRobin C) := by
  have hw : ∀ i n, (frun C (froundRobin C) i).s.worker n ≠ .idle → n ∈ C.dag.nodes := by
    intro i n h
    rw [frun_fexec] at h
    obtain ⟨ms, hs⟩ := (finv_exec hwf ((List.range i).map (froundRobin C))).moves
    rw [hs] at h
    have hI := inv_exec hwf ms
    rcases hI.workerOnly n h with ⟨h1, _⟩ | ⟨x, h1, rfl, _⟩
    · exact hI.inNodes n (by unfold allNodes; simp [h1])
    · exact hI.inNodes _ (by unfold allNodes; simp only [List.mem_append]; exact .inl (.inl (List.mem_map_of_mem h1)))
  have hlen : 2 ≤ (froundMoves C).length := by simp [froundMoves]
  refine ⟨?_, ?_, ?_, ?_⟩
  · intro i
    have h0 := froundRobin_at C 0 i (by omega)
    have h1 := froundRobin_at C 1 i (by omega)
    rw [Nat.zero_add] at h0
    have hi := Nat.mul_le_mul_right i (show 1 ≤ (froundMoves C).length by omega)
    by_cases hp : (frun C (froundRobin C) ((froundMoves C).length * i)).pend = []
    · exact ⟨(froundMoves C).length * i, by omega, by rw [h0, if_pos hp]; simp [froundMoves]⟩
    · refine ⟨1 + (froundMoves C).length * i, by omega, ?_⟩
      have : (frun C (froundRobin C) (1 + (froundMoves C).length * i)).pend ≠ [] := by
        rw [Nat.add_comm]
        change (fstep C _ (froundRobin C _)).pend ≠ []
        rw [h0]
        change (fstep C _ (.move .ctl)).pend ≠ []
        rw [fstep, if_neg hp]
        · exact hp
        · simp
        · simp
      rw [h1, if_neg this]; simp [froundMoves]
  · intro i n _ h
    exact froundRobin_hits C (by simp [froundMoves, hw i n (by rw [h]; simp)]) i
  · intro i n h
    exact froundRobin_hits C (by simp [froundMoves, hw i n (by rw [h]; simp)]) i
  · intro i
    have hmem : froundRobin C i ∈ froundMoves C := by
      unfold froundRobin
      have : i % (froundMoves C).length < (froundMoves C).length := Nat.mod_lt _ (by omega)
      simp [this]
    refine ⟨?_, ?_, fun k => ?_⟩ <;> intro h <;> rw [h] at hmem <;> simp [froundMoves] at hmem

example : ∃ i, (frun (Ex.cfg 2) (froundRobin (Ex.cfg 2)) i).s.phase = .finished ∧
    (frun (Ex.cfg 2) (froundRobin (Ex.cfg 2)) i).pend = [] :=
  C95_completes _ (Ex.healthy 2) _ (froundRobin_fair _ (Ex.wf 2))

end Joque
