import Verif.Proof.Progress

/-! # What the control thread does while nothing useful happens -/

namespace Joque

variable {C : Cfg}

/-- some portions of the control thread -/
def ctlN (C : Cfg) (s : St) : Nat → St
  | 0 => s
  | m + 1 => ctlN C (ctlStep C s true) m

theorem ctlN_succ (C : Cfg) (s : St) (m : Nat) : ctlN C s (m + 1) = ctlStep C (ctlN C s m) true := by
  induction m generalizing s with
  | zero => rfl
  | succ m ih => exact ih (ctlStep C s true)

theorem ctlN_add (C : Cfg) (s : St) (a b : Nat) : ctlN C s (a + b) = ctlN C (ctlN C s a) b := by
  induction b with
  | zero => rfl
  | succ b ih => rw [Nat.add_succ, ctlN_succ, ih, ← ctlN_succ]

/-- however often it is resumed, the control thread gets nothing done -/
def Idling (C : Cfg) (s : St) : Prop :=
  ∀ m, Inv C (ctlN C s m) ∧ (ctlN C s m).phase.active = true ∧ (ctlN C s m).phase ≠ .finished ∧
    remaining (ctlN C s m) = remaining s

theorem Idling.after {s : St} (h : Idling C s) (a : Nat) : Idling C (ctlN C s a) := by
  intro m
  rw [← ctlN_add]
  obtain ⟨h1, h2, h3, h4⟩ := h (a + m)
  exact ⟨h1, h2, h3, h4.trans (h a).2.2.2.symm⟩

/-- nothing but the position of the control thread differs -/
structure Same (s u : St) : Prop where
  hs : handles u = handles s
  worker : u.worker = s.worker
  tp : u.toProcess = s.toProcess
  flags : u.flags = s.flags
  used : u.used = s.used
  erec : u.erec = s.erec

theorem Same.rfl {s : St} : Same s s := ⟨.refl _, .refl _, .refl _, .refl _, .refl _, .refl _⟩

theorem Same.trans {s u v : St} (h : Same s u) (k : Same u v) : Same s v :=
  ⟨k.hs.trans h.hs, k.worker.trans h.worker, k.tp.trans h.tp, k.flags.trans h.flags, k.used.trans h.used,
    k.erec.trans h.erec⟩

/-- the rest of a pass over the coroutines -/
theorem idling_pass (hG : Healthy C) : ∀ (l : List Slot) (s : St), s.todo = l → Idling C s → ∀ d, s.phase = .clean d →
    ∃ m, Same s (ctlN C s m) ∧ (ctlN C s m).phase = (if d then .susp true else .pick) ∧
      ∀ sl ∈ l, sl.h.launched = true ∧ s.worker sl.h.node ≠ .finished := by
  intro l
  induction l with
  | nil =>
    intro s ht h d hp
    obtain ⟨hI, -⟩ := h 0
    have hI : Inv C s := hI
    refine ⟨1, ?_, ?_, by simp⟩
    · show Same s (ctlStep C s true)
      unfold ctlStep; rw [hp]
      show Same s (cleanStep C s true d)
      unfold cleanStep; rw [ht]
      refine ⟨?_, rfl, rfl, rfl, rfl, rfl⟩
      simp [handles, ht, zip_h (p := s.passed) (k := s.kept) hI.passedLen]
    · show (ctlStep C s true).phase = _
      unfold ctlStep; rw [hp]
      show (cleanStep C s true d).phase = _
      unfold cleanStep; rw [ht]
  | cons sl rest ih =>
    intro s ht h d hp
    obtain ⟨hI, -⟩ := h 0
    have hI : Inv C s := hI
    have hrem : remaining (ctlStep C s true) = remaining s := (h 1).2.2.2
    have e : ctlStep C s true = cleanStep C s true d := by unfold ctlStep; rw [hp]
    rw [e] at hrem
    obtain ⟨-, c2, -⟩ := ctl_clean hG hI hp ht
    have c3 : sl.h.launched = true ∧ s.worker sl.h.node ≠ .finished := by
      rcases c2 with c2 | ⟨_, _, _, c3⟩
      · omega
      · exact c3
    have e2 : cleanStep C s true d =
        { s with kept := s.kept ++ [sl.h], passed := s.passed ++ [sl.ref], todo := rest } := by
      unfold cleanStep; rw [ht]; simp [c3.1, c3.2]
    have hn : Idling C (ctlStep C s true) := h.after 1
    rw [e, e2] at hn
    obtain ⟨m, m1, m2, m3⟩ := ih _ rfl hn d hp
    have e3 : ctlN C s (m + 1) = ctlN C { s with kept := s.kept ++ [sl.h], passed := s.passed ++ [sl.ref], todo := rest } m := by
      show ctlN C (ctlStep C s true) m = _
      rw [e, e2]
    refine ⟨m + 1, ?_, by rw [e3]; exact m2, ?_⟩
    · rw [e3]
      have m0 : Same s { s with kept := s.kept ++ [sl.h], passed := s.passed ++ [sl.ref], todo := rest } :=
        ⟨by simp [handles, ht], rfl, rfl, rfl, rfl, rfl⟩
      exact m0.trans m1
    · intro x hx
      rcases List.mem_cons.1 hx with rfl | hx
      · exact c3
      · exact m3 x hx

theorem idling_pick (h : Idling C s) (hp : s.phase = .pick) :
    ctlStep C s true = { s with phase := .susp false } ∧
    (s.todo.length ≥ C.threadCount ∧ C.threadCount ≠ 0 ∨
      findCandidate C.dag C.resources s.flags s.used s.toProcess = some none) := by
  obtain ⟨hI, hact, -⟩ := h 0
  have hI : Inv C s := hI
  have hact : s.phase.active = true := hact
  obtain ⟨hI1, hact1, -, hrem⟩ := h 1
  change remaining (ctlStep C s true) = remaining s at hrem
  change (ctlStep C s true).phase.active = true at hact1
  obtain ⟨hk, -⟩ := hI.notClean hact (by rw [hp]; rfl)
  have e : ctlStep C s true = pickStep C s := by unfold ctlStep; rw [hp]
  rw [e] at hrem hact1 ⊢
  unfold pickStep at hrem hact1 ⊢
  split
  · rename_i hc; exact ⟨rfl, .inl hc⟩
  · rename_i hc
    rw [if_neg hc] at hrem hact1
    cases hf : findCandidate C.dag C.resources s.flags s.used s.toProcess with
    | none => rw [hf] at hact1; cases hact1
    | some r =>
      cases r with
      | none =>
        rw [hf] at hact1
        simp only at hact1 ⊢
        split
        · rename_i ht; rw [if_pos ht] at hact1; cases hact1
        · exact ⟨rfl, .inr (by trivial)⟩
      | some n =>
        rw [hf] at hrem
        exfalso
        simp only [remaining, handles, hk, List.nil_append, List.map_append, List.sum_append,
          List.map_cons, List.map_nil, List.sum_cons, List.sum_nil] at hrem
        have : wt s.worker { node := n, launched := false, start := 0 } = 4 := by simp [wt]
        rw [this] at hrem
        omega

/-- a pass begins -/
theorem idling_tour (hG : Healthy C) {s : St} (h : Idling C s) :
    ∃ m, Same s (ctlN C s m) ∧ (ctlN C s m).kept = [] ∧ ∃ d, (ctlN C s m).phase = .clean d := by
  have loop : ∀ s, Idling C s → (s.phase = .loopTop ∨ s.phase = .drainTop) →
      ∃ m, Same s (ctlN C s m) ∧ (ctlN C s m).kept = [] ∧ ∃ d, (ctlN C s m).phase = .clean d := by
    have drain : ∀ s, Idling C s → s.phase = .drainTop →
        ∃ m, Same s (ctlN C s m) ∧ (ctlN C s m).kept = [] ∧ ∃ d, (ctlN C s m).phase = .clean d := by
      intro s h hp
      obtain ⟨hI, hact, -⟩ := h 0
      have hk := (Inv.notClean hI hact (by show Phase.isClean s.phase = _; rw [hp]; rfl)).1
      have hnf := (h 1).2.2.1
      change (ctlStep C s true).phase ≠ _ at hnf
      have e : ctlStep C s true = { s with phase := .clean true } := by
        unfold ctlStep at hnf ⊢
        rw [hp] at hnf ⊢
        simp only at hnf ⊢
        split
        · rename_i ht; rw [if_pos ht] at hnf; exact absurd rfl hnf
        · rfl
      refine ⟨1, ?_⟩
      show Same s (ctlStep C s true) ∧ (ctlStep C s true).kept = [] ∧ ∃ d, (ctlStep C s true).phase = .clean d
      rw [e]
      exact ⟨⟨rfl, rfl, rfl, rfl, rfl, rfl⟩, hk, true, rfl⟩
    rintro s h (hp | hp)
    · obtain ⟨hI, hact, -⟩ := h 0
      have hk : s.kept = [] := (Inv.notClean hI hact (by show Phase.isClean s.phase = _; rw [hp]; rfl)).1
      by_cases ht : s.toProcess = []
      · have e : ctlStep C s true = { s with phase := .drainTop } := by
          unfold ctlStep; rw [hp]; simp [ht]
        have h1 : Idling C (ctlStep C s true) := h.after 1
        obtain ⟨m, m1, m2⟩ := drain _ h1 (by rw [e])
        refine ⟨m + 1, Same.trans ?_ m1, m2⟩
        rw [e]; exact ⟨rfl, rfl, rfl, rfl, rfl, rfl⟩
      · have e : ctlStep C s true = { s.emit (.onTick s.erec) with phase := .clean false } := by
          unfold ctlStep; rw [hp]; simp [ht]
        refine ⟨1, ?_⟩
        show Same s (ctlStep C s true) ∧ (ctlStep C s true).kept = [] ∧ ∃ d, (ctlStep C s true).phase = .clean d
        rw [e]
        exact ⟨⟨rfl, rfl, rfl, rfl, rfl, rfl⟩, hk, false, rfl⟩
    · exact drain s h hp
  have susp : ∀ s, Idling C s → (∃ d, s.phase = .susp d) →
      ∃ m, Same s (ctlN C s m) ∧ (ctlN C s m).kept = [] ∧ ∃ d, (ctlN C s m).phase = .clean d := by
    rintro s h ⟨d, hp⟩
    have e : ctlStep C s true = { s.emit .resumed with phase := if d then .drainTop else .loopTop } := by
      unfold ctlStep; rw [hp]
    have h1 : Idling C (ctlStep C s true) := h.after 1
    obtain ⟨m, m1, m2⟩ := loop _ h1 (by rw [e]; cases d <;> simp)
    refine ⟨m + 1, Same.trans ?_ m1, m2⟩
    rw [e]; exact ⟨rfl, rfl, rfl, rfl, rfl, rfl⟩
  have pick : ∀ s, Idling C s → s.phase = .pick →
      ∃ m, Same s (ctlN C s m) ∧ (ctlN C s m).kept = [] ∧ ∃ d, (ctlN C s m).phase = .clean d := by
    intro s h hp
    have e := (idling_pick h hp).1
    have h1 : Idling C (ctlStep C s true) := h.after 1
    obtain ⟨m, m1, m2⟩ := susp _ h1 ⟨false, by rw [e]⟩
    refine ⟨m + 1, Same.trans ?_ m1, m2⟩
    rw [e]; exact ⟨rfl, rfl, rfl, rfl, rfl, rfl⟩
  obtain ⟨-, hact, hnf, -⟩ := h 0
  change s.phase.active = true at hact
  change s.phase ≠ _ at hnf
  cases hp : s.phase with
  | loopTop => exact loop s h (.inl hp)
  | drainTop => exact loop s h (.inr hp)
  | susp d => exact susp s h ⟨d, hp⟩
  | pick => exact pick s h hp
  | clean d =>
    obtain ⟨a, a1, a2, -⟩ := idling_pass hG _ s rfl h d hp
    have ha := h.after a
    have : ∃ m, Same (ctlN C s a) (ctlN C (ctlN C s a) m) ∧ (ctlN C (ctlN C s a) m).kept = [] ∧
        ∃ d, (ctlN C (ctlN C s a) m).phase = .clean d := by
      cases d with
      | true => exact susp _ ha ⟨true, a2⟩
      | false => exact pick _ ha a2
    obtain ⟨m, m1, m2⟩ := this
    rw [← ctlN_add] at m1 m2
    exact ⟨a + m, a1.trans m1, m2⟩
  | _ => first | (rw [hp] at hact; cases hact; done) | exact absurd hp hnf

/-- a pass is over -/
theorem idling_end (hG : Healthy C) {s : St} (h : Idling C s) :
    (∀ x ∈ handles s, x.launched = true ∧ s.worker x.node ≠ .finished) ∧
    ∃ m, Same s (ctlN C s m) ∧ ((ctlN C s m).phase = .pick ∨ (ctlN C s m).phase = .susp true) := by
  obtain ⟨a, a1, a2, d, a3⟩ := idling_tour hG h
  obtain ⟨b, b1, b2, b3⟩ := idling_pass hG _ _ rfl (h.after a) d a3
  refine ⟨?_, a + b, ?_⟩
  · intro x hx
    rw [← a1.hs] at hx
    unfold handles at hx
    rw [a2, List.nil_append] at hx
    obtain ⟨sl, hsl, rfl⟩ := List.mem_map.1 hx
    rw [← a1.worker]
    exact b3 sl hsl
  · rw [ctlN_add]
    refine ⟨a1.trans b1, ?_⟩
    cases d
    · exact .inl b2
    · exact .inr b2

/-- while nothing useful happens, everything that is left waits for a thread. -/
theorem idling_blocked (hG : Healthy C) {s : St} (h : Idling C s) {n : Node} (hn : n ∈ s.toProcess) :
    (C.threadCount ≠ 0 ∧ C.threadCount ≤ (handles s).length) ∨
    ∃ c ∈ s.toProcess, Relation.ReflTransGen (AfterEdge C.dag) n c ∧
      ((∃ m, AfterEdge C.dag c m ∧ ∃ x ∈ handles s, x.node = m) ∨
        ∃ r ∈ C.resources c, ∃ x ∈ handles s, r ∈ C.resources x.node) := by
  obtain ⟨-, m, m1, m2⟩ := idling_end hG h
  obtain ⟨hI0, hact0, -⟩ := h 0
  have hI0 : Inv C s := hI0
  have hact0 : s.phase.active = true := hact0
  have hm := h.after m
  obtain ⟨hI, hact, -⟩ := h m
  rcases m2 with hp | hp
  · obtain ⟨hk, -⟩ := hI.notClean hact (by rw [hp]; rfl)
    obtain ⟨-, hc⟩ := idling_pick hm hp
    rcases hc with hc | hc
    · left
      refine ⟨hc.2, ?_⟩
      have := congrArg List.length m1.hs
      unfold handles at this
      rw [hk] at this
      unfold handles
      simp at this hc ⊢
      omega
    · right
      obtain ⟨r, hr, -, h2⟩ := findCandidate_spec (res := C.resources) (f := (ctlN C s m).flags)
        (used := (ctlN C s m).used) hG.wf hI.tp_nodes
      rw [hc] at hr
      have hnone := h2 (Option.some.inj hr).symm
      rw [m1.tp, m1.flags, m1.used] at hnone
      -- the earliest of what `n` waits for
      classical
      obtain ⟨c, hcm, hmin⟩ := exists_minimal (R := AfterEdge C.dag) hG.acyclic _
        (s.toProcess.filter fun c => Relation.ReflTransGen (AfterEdge C.dag) n c) (Nat.le_refl _)
        (List.ne_nil_of_mem (List.mem_filter.2 ⟨hn, by simpa using Relation.ReflTransGen.refl⟩))
      obtain ⟨hct, hcr⟩ := List.mem_filter.1 hcm
      have hcr : Relation.ReflTransGen (AfterEdge C.dag) n c := by simpa using hcr
      refine ⟨c, hct, hcr, ?_⟩
      by_contra hno
      rw [not_or] at hno
      refine hnone c hct ⟨hI0.tpIdle c hct, ?_, ?_, ?_⟩
      · cases hd : s.flags.done c
        · rfl
        · have h1 := hI0.nodup
          unfold allNodes at h1
          rw [List.nodup_append] at h1
          exact absurd rfl (h1.2.2 c (List.mem_append_right _ ((hI0.doneIff c).1 hd)) c hct)
      · intro x hx
        have hxn : x ∈ C.dag.nodes := (hG.wf.closed _ hx).2
        have := hI0.part hact0 x hxn
        unfold allNodes at this
        simp only [List.mem_append] at this
        rcases this with (h1 | h1) | h1
        · obtain ⟨y, hy, e⟩ := List.mem_map.1 h1
          exact absurd ⟨x, hx, y, hy, e⟩ hno.1
        · exact (hI0.doneIff x).2 h1
        · exact absurd hx (hmin x (List.mem_filter.2 ⟨h1, by simpa using hcr.tail hx⟩))
      · intro r hr hru
        obtain ⟨x, h1, _, h3⟩ := hI0.usedSub hact0 r hru
        exact hno.2 ⟨r, hr, x, h1, h3⟩
  · have := hI.drain (by rw [hp]; rfl)
    rw [m1.tp] at this
    rw [this] at hn; cases hn

end Joque
