import Verif.Props.Parallel

/-! # More threads than can be used (C103) -/

namespace Joque

variable {C : Cfg}

/-- Tasks that nothing declared keeps from running at one moment: none is ordered before another, no two
share a resource. -/
structure Compatible (C : Cfg) (l : List Node) : Prop where
  nodup : l.Nodup
  nodes : ∀ x ∈ l, x ∈ C.dag.nodes
  unordered : ∀ x ∈ l, ∀ y ∈ l, ¬ Relation.TransGen (AfterEdge C.dag) x y
  resources : ∀ x ∈ l, ∀ y ∈ l, x ≠ y → ∀ r ∈ C.resources x, r ∉ C.resources y

/-- what is in flight when the engine looks for work and what it finds are compatible -/
theorem pick_compatible (hwf : C.dag.WF) (ms : List Move) (hp : (exec C ms).phase = .pick) {n : Node}
    (hn : n ∈ C.dag.nodes)
    (hE : Eligible C.dag C.resources (exec C ms).flags (exec C ms).used n) :
    Compatible C (n :: (exec C ms).todo.map fun sl => sl.h.node) := by
  obtain ⟨hI, hT⟩ := both_exec hwf ms
  have hact : (exec C ms).phase.active = true := by rw [hp]; rfl
  have hk := (hI.notClean hact (by rw [hp]; rfl)).1
  have hh : handles (exec C ms) = (exec C ms).todo.map Slot.h := by simp [handles, hk]
  have hmem : ∀ x ∈ (exec C ms).todo.map (fun sl => sl.h.node),
      ∃ h ∈ handles (exec C ms), h.node = x ∧ h.launched = true := by
    intro x hx
    obtain ⟨sl, hsl, rfl⟩ := List.mem_map.1 hx
    exact ⟨sl.h, by rw [hh]; exact List.mem_map_of_mem hsl, rfl, hI.pickLaunched hp sl hsl⟩
  have hnd := hI.nodup
  unfold allNodes at hnd
  rw [List.append_assoc, List.nodup_append] at hnd
  have hdone : ∀ x ∈ n :: (exec C ms).todo.map (fun sl => sl.h.node), (exec C ms).flags.done x = false := by
    intro x hx
    rcases List.mem_cons.1 hx with rfl | hx
    · exact hE.notDone
    · obtain ⟨h, h1, rfl, _⟩ := hmem x hx
      cases hd : (exec C ms).flags.done h.node
      · rfl
      · exact absurd rfl (hnd.2.2 _ (List.mem_map_of_mem h1) _
          (List.mem_append_left _ ((hI.doneIff _).1 hd)))
  have hpre : ∀ x ∈ n :: (exec C ms).todo.map (fun sl => sl.h.node), ∀ m, AfterEdge C.dag x m →
      (exec C ms).flags.done m = true := by
    intro x hx m hm
    rcases List.mem_cons.1 hx with rfl | hx
    · exact hE.predsDone m hm
    · obtain ⟨h, h1, rfl, _⟩ := hmem x hx
      exact hI.preds h h1 m hm
  refine ⟨List.nodup_cons.2 ⟨fun hx => ?_, ?_⟩, fun x hx => ?_, fun x hx y hy hxy => ?_,
    fun x hx y hy hne r hr hry => ?_⟩
  · obtain ⟨h, h1, rfl, hl⟩ := hmem n hx
    have := (hI.launched h h1 hl).1
    rw [hE.notStarted] at this; cases this
  · have := hnd.1
    rw [hh, List.map_map] at this
    exact this
  · rcases List.mem_cons.1 hx with rfl | hx
    · exact hn
    · obtain ⟨h, h1, rfl, _⟩ := hmem x hx
      refine hI.inNodes _ ?_
      unfold allNodes
      exact List.mem_append_left _ (List.mem_append_left _ (List.mem_map_of_mem h1))
  · obtain ⟨a, ha, hay⟩ := Relation.TransGen.head'_iff.1 hxy
    have h1 : Recorded (exec C ms).trace a := (recorded_iff hI hT).2 (hpre x hx a ha)
    have h2 := (recorded_iff hI hT).1 (recorded_chain hwf ms (q := []) (by simp) h1 hay)
    rw [hdone y hy] at h2; cases h2
  · have used : ∀ z ∈ (exec C ms).todo.map (fun sl => sl.h.node), ∀ r ∈ C.resources z,
        r ∈ (exec C ms).used := by
      intro z hz r hr
      obtain ⟨h, h1, rfl, hl⟩ := hmem z hz
      exact (hI.launched h h1 hl).2.2.2.2.1 r hr
    rcases List.mem_cons.1 hx with hx' | hx' <;> rcases List.mem_cons.1 hy with hy' | hy'
    · exact hne (hx'.trans hy'.symm)
    · exact hE.resFree r (hx' ▸ hr) (used y hy' r hry)
    · exact hE.resFree r (hy' ▸ hry) (used x hx' r hr)
    · obtain ⟨h, h1, rfl, hl⟩ := hmem x hx'
      obtain ⟨h', h1', rfl, hl'⟩ := hmem y hy'
      exact hI.excl h h1 h' h1' hl hl' hne r hr hry

/-- the test of the thread limit changes nothing -/
theorem pick_many (hwf : C.dag.WF) (ms : List Move) (hp : (exec C ms).phase = .pick) (k : Nat) (hk : 0 < k)
    (hl : ∀ l, Compatible C l → l.length ≤ k) :
    pickStep { C with threadCount := k } (exec C ms) = pickStep { C with threadCount := 0 } (exec C ms) := by
  unfold pickStep
  simp only [ne_eq, not_true_eq_false, and_false, if_false]
  by_cases hc : (exec C ms).todo.length ≥ k
  · rw [if_pos ⟨hc, fun h => by omega⟩]
    obtain ⟨r, hr, h1, _⟩ := findCandidate_spec (res := C.resources) (f := (exec C ms).flags)
      (used := (exec C ms).used) hwf (inv_exec hwf ms).tp_nodes
    simp only [hr]
    cases r with
    | none =>
      simp only
      rw [if_neg]
      intro h
      rw [h] at hc
      simp at hc; omega
    | some n =>
      obtain ⟨hE, hn⟩ := h1 n rfl
      have := hl _ (pick_compatible hwf ms hp hn hE)
      simp only [List.length_cons, List.length_map] at this
      omega
  · rw [if_neg (fun h => hc h.1)]

/-- a move does the same with any two thread counts that are enough -/
theorem step_many (hwf : C.dag.WF) (ms : List Move) (a b : Nat) (ha : 0 < a) (hb : 0 < b)
    (hla : ∀ l, Compatible C l → l.length ≤ a) (hlb : ∀ l, Compatible C l → l.length ≤ b) (m : Move) :
    step { C with threadCount := a } (exec C ms) m = step { C with threadCount := b } (exec C ms) m := by
  have hstart : ∀ s ok ref h rest, startRun { C with threadCount := a } s ok ref h rest =
      startRun { C with threadCount := b } s ok ref h rest := by
    intro s ok ref h rest
    unfold startRun
    simp only [show a ≠ 0 by omega, show b ≠ 0 by omega, if_false]
  have hctl : ∀ ok, ctlStep { C with threadCount := a } (exec C ms) ok =
      ctlStep { C with threadCount := b } (exec C ms) ok := by
    intro ok
    unfold ctlStep
    cases hp : (exec C ms).phase with
    | created => rfl
    | pick =>
      simp only
      rw [pick_many hwf ms hp a ha hla, pick_many hwf ms hp b hb hlb]
    | clean d =>
      simp only [cleanStep, hstart]
      rfl
    | _ => rfl
  cases m with
  | ctl => exact hctl true
  | ctlFail => exact hctl false
  | fault f =>
    have ht : ∀ f k, throwStep { C with threadCount := a } (exec C ms) f k =
        throwStep { C with threadCount := b } (exec C ms) f k := by
      intro f k
      unfold throwStep
      rw [hctl]
    simp only [step, faultStep]
    cases f with
    | visitor k => exact ht _ _
    | memory k => exact ht _ _
    | memoryBefore => simp only [hctl]
  | _ => rfl

/-- **C103**.  If a thread count is at least the size of every set of tasks that could run at one moment
as far as their declarations tell, then a larger one makes no difference at all: the same moves of the
threads lead to the same state, through the same history. -/
theorem C103_same (C : Cfg) (hwf : C.dag.WF) (a b : Nat) (ha : 0 < a) (hab : a ≤ b)
    (hl : ∀ l, Compatible C l → l.length ≤ a) (ms : List Move) :
    exec { C with threadCount := a } ms = exec { C with threadCount := b } ms := by
  induction ms using List.reverseRecOn with
  | nil => rfl
  | append_singleton ms m ih =>
    rw [exec_append, exec_append]
    simp only [List.foldl]
    rw [← ih]
    have hl' : ∀ l, Compatible { C with threadCount := a } l → l.length ≤ a :=
      fun l h => hl l ⟨h.nodup, h.nodes, h.unordered, h.resources⟩
    exact step_many (C := { C with threadCount := a }) hwf ms a b ha (by omega) hl'
      (fun l h => Nat.le_trans (hl' l h) hab) m

/-- **C103**, the simplest case: as many threads as tasks are as good as any number. -/
theorem C103_tasks (C : Cfg) (hwf : C.dag.WF) (a b : Nat) (ha : 0 < a) (hb : 0 < b)
    (hna : C.dag.nodes.length ≤ a) (hnb : C.dag.nodes.length ≤ b) (ms : List Move) :
    exec { C with threadCount := a } ms = exec { C with threadCount := b } ms := by
  have hl : ∀ l, Compatible C l → l.length ≤ C.dag.nodes.length := fun l h =>
    (List.subperm_of_subset h.nodup h.nodes).length_le
  rcases Nat.le_total a b with h | h
  · exact C103_same C hwf a b ha h (fun l hh => Nat.le_trans (hl l hh) hna) ms
  · exact (C103_same C hwf b a hb h (fun l hh => Nat.le_trans (hl l hh) hnb) ms).symm

/-- **C103**, the other direction: with fewer threads than such a set of tasks that are all to be executed
(and whose resources do not also keep each other from becoming ready, see C87) there is an execution in
which all of them run at one moment with `b` threads, and none with `a`. -/
theorem C103_sharp (C : Cfg) (hG : Healthy C)
    (hra : ∀ a b, HasEdge C.dag .requires a b → AfterEdge C.dag a b) (S : List Node) (a b : Nat)
    (ha : 0 < a) (haS : a < S.length)
    (hS : Independent { C with threadCount := b } S)
    (hex : ∀ x ∈ S, ∃ ms, JobBegan (exec { C with threadCount := b } ms).trace x) :
    (∃ ms, ∀ x ∈ S, Running (exec { C with threadCount := b } ms).trace x) ∧
      ¬ ∃ ms, ∀ x ∈ S, Running (exec { C with threadCount := a } ms).trace x := by
  constructor
  · obtain ⟨ms, h⟩ := C87_parallel { C with threadCount := b }
      ⟨hG.wf, hG.acyclic, hG.jobs, hG.answers, hG.codes⟩ hra S hS hex [] (.inr rfl)
      (fun x _ h => by simp [JobEnded, exec, St.init] at h)
    exact ⟨ms, h⟩
  · rintro ⟨ms, h⟩
    have := (C04_thread_limit { C with threadCount := a } hG.wf ms _ [] (by simp)).1 S hS.nodup h
    rw [if_neg (by simp; omega)] at this
    simp only at this
    omega

/-- three tasks, but two of them share a resource: at most two can run at one moment -/
theorem Ex.par_width (tc : Nat) (l : List Node) (h : Compatible (Ex.par tc) l) : l.length ≤ 2 := by
  have hn : ∀ x ∈ l, x = 3 ∨ x = 2 ∨ x = 1 := by
    intro x hx
    have h1 := h.nodes x hx
    change x ∈ [3, 2, 1] at h1
    simpa using h1
  by_cases h1 : 1 ∈ l
  · have h2 : 2 ∉ l := fun h2 => h.resources 1 h1 2 h2 (by decide) 7 (by simp [Ex.par]) (by simp [Ex.par])
    exact (List.subperm_of_subset h.nodup (l₂ := [3, 1]) fun x hx => by
      rcases hn x hx with rfl | rfl | rfl
      · simp
      · exact absurd hx h2
      · simp).length_le
  · exact (List.subperm_of_subset h.nodup (l₂ := [3, 2]) fun x hx => by
      rcases hn x hx with rfl | rfl | rfl
      · simp
      · simp
      · exact absurd hx h1).length_le

/-- so two threads are enough for them, and any number above does the same -/
example (ms : List Move) : exec (Ex.par 2) ms = exec (Ex.par 100) ms :=
  C103_same (Ex.par 2) (Ex.par_wf 2) 2 100 (by omega) (by omega) (Ex.par_width 2) ms

/-- one thread is not enough -/
example : (∃ ms, ∀ x ∈ [1, 3], Running (exec (Ex.par 2) ms).trace x) ∧
    ¬ ∃ ms, ∀ x ∈ [1, 3], Running (exec (Ex.par 1) ms).trace x := by
  have hno : ∀ x y, ¬ AfterEdge (Ex.par 2).dag x y := by
    intro x y h
    cases h
  have hno' : ∀ x y, ¬ Relation.TransGen (AfterEdge (Ex.par 2).dag) x y := by
    intro x y h
    obtain ⟨z, hz, _⟩ := Relation.TransGen.head'_iff.1 h
    exact hno x z hz
  refine C103_sharp (Ex.par 2) ⟨Ex.par_wf 2, ?_, fun _ _ => rfl, fun _ _ => ⟨_, rfl⟩, ?_⟩ ?_ [1, 3] 1 2
    (by omega) (by simp) ⟨by simp, by simp, fun x _ y _ => hno' x y, ?_⟩ ?_
  · rintro ⟨n, hn⟩
    exact hno' n n hn
  · rintro n - rr h h'
    cases h
    cases h'
  · intro a b h
    cases h
  · intro x hx z hz y hzy hne _
    rcases Relation.ReflTransGen.cases_head hzy with rfl | ⟨a, ha, _⟩
    · simp only [List.mem_cons, List.not_mem_nil, or_false] at hx hz
      rcases hx with rfl | rfl <;> rcases hz with rfl | rfl
      · exact absurd rfl hne
      · decide
      · decide
      · exact absurd rfl hne
    · exact absurd ha (hno z a)
  · intro x hx
    refine ⟨List.replicate 20 .ctl ++ [.begin 1, .begin 3], false, ?_⟩
    simp only [List.mem_cons, List.not_mem_nil, or_false] at hx
    rcases hx with rfl | rfl <;> decide +kernel

end Joque
