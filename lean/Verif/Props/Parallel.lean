import Verif.Proof.Parallel

/-! # Independent tasks run at the same time (C87) -/

namespace Joque

variable {C : Cfg}

/-- The tasks of `S` may all run at one moment as far as `thread_count`, the order and the resources
tell: there are not more of them than threads, none is ordered before another, and no task `x` of
`S` shares a resource with another one or with a task that has to come before another one (unless
that task has to come before `x` as well). -/
structure Independent (C : Cfg) (S : List Node) : Prop where
  nodup : S.Nodup
  threads : S.length ≤ C.threadCount
  unordered : ∀ x ∈ S, ∀ y ∈ S, ¬ Relation.TransGen (AfterEdge C.dag) x y
  resources : ∀ x ∈ S, ∀ z ∈ S, ∀ y, Relation.ReflTransGen (AfterEdge C.dag) z y → x ≠ y →
    ¬ Relation.TransGen (AfterEdge C.dag) x y → ∀ r ∈ C.resources x, r ∉ C.resources y

/-- when the jobs in flight are all of `S`, either all of `S` is in flight or more can start -/
theorem pick_more (hG : Healthy C)
    (hra : ∀ a b, HasEdge C.dag .requires a b → AfterEdge C.dag a b) {S : List Node}
    (hS : Independent C S) (hex : ∀ x ∈ S, Executes C x) (ms : List Move)
    (hp : (exec C ms).phase = .pick) (hheld : Held S (exec C ms))
    (hin : ∀ h ∈ handles (exec C ms), h.node ∈ S) :
    (∀ x ∈ S, ∃ h ∈ handles (exec C ms), h.node = x) ∨
    remaining (pickStep C (exec C ms)) < remaining (exec C ms) := by
  classical
  obtain ⟨hI, hT⟩ := both_exec hG.wf ms
  have hact : (exec C ms).phase.active = true := by rw [hp]; rfl
  have hk := (hI.notClean hact (by rw [hp]; rfl)).1
  have hnd := hI.nodup
  unfold allNodes at hnd
  rw [List.nodup_append, List.nodup_append] at hnd
  obtain ⟨⟨hnd1, _, hnd2⟩, _, hnd3⟩ := hnd
  have hlen : (handles (exec C ms)).length = (exec C ms).todo.length := by simp [handles, hk]
  by_cases hall : ∀ x ∈ S, ∃ h ∈ handles (exec C ms), h.node = x
  · exact .inl hall
  right
  simp only [not_forall] at hall
  obtain ⟨x, hx, hno⟩ := hall
  have hxn : x ∉ (handles (exec C ms)).map Handle.node := by
    intro h
    obtain ⟨y, hy, rfl⟩ := List.mem_map.1 h
    exact hno ⟨y, hy, rfl⟩
  have hxt : x ∈ (exec C ms).toProcess := by
    have := hI.part hact x ((hex x hx).node hG.wf)
    unfold allNodes at this
    simp only [List.mem_append] at this
    rcases this with (h | h) | h
    · exact absurd h hxn
    · exact absurd h (hheld.spec hG.wf hra hex ms hact hx).1
    · exact h
  -- the thread limit is not reached
  have hlt : (exec C ms).todo.length < C.threadCount := by
    have hsub : x :: (handles (exec C ms)).map Handle.node ⊆ S := by
      intro y hy
      rcases List.mem_cons.1 hy with rfl | hy
      · exact hx
      · obtain ⟨h, hh, rfl⟩ := List.mem_map.1 hy
        exact hin h hh
    have h1 := (List.subperm_of_subset (List.nodup_cons.2 ⟨hxn, hnd1⟩) hsub).length_le
    have h2 := hS.threads
    simp only [List.length_cons, List.length_map] at h1
    omega
  -- the earliest unfinished task that `x` waits for
  let l := (exec C ms).toProcess.filter
    (fun y => decide (Relation.ReflTransGen (AfterEdge C.dag) x y))
  have hl : l ≠ [] := List.ne_nil_of_mem (List.mem_filter.2 ⟨hxt, by simpa using .refl⟩)
  obtain ⟨c, hc, hmin⟩ := exists_minimal (R := AfterEdge C.dag) (hI.acyc hact) l.length l
    (Nat.le_refl _) hl
  obtain ⟨hct, hcx⟩ := List.mem_filter.1 hc
  have hcx : Relation.ReflTransGen (AfterEdge C.dag) x c := by simpa using hcx
  refine pick_less hG hI hp hlt hct ⟨hI.tpIdle c hct, ?_, ?_, ?_⟩
  · cases hd : (exec C ms).flags.done c
    · rfl
    · exact absurd rfl (hnd3 c (List.mem_append_right _ ((hI.doneIff c).1 hd)) c hct)
  · intro m hm
    have hxm : Relation.TransGen (AfterEdge C.dag) x m := Relation.TransGen.tail' hcx hm
    have := hI.part hact m (hG.wf.closed _ hm).2
    unfold allNodes at this
    simp only [List.mem_append] at this
    rcases this with (h | h) | h
    · obtain ⟨y, hy, rfl⟩ := List.mem_map.1 h
      exact absurd hxm (hS.unordered x hx _ (hin y hy))
    · exact (hI.doneIff m).2 h
    · exact absurd hm (hmin m (List.mem_filter.2 ⟨h, by simpa using hxm.to_reflTransGen⟩))
  · intro r hr hu
    obtain ⟨h, hh, _, hrh⟩ := hI.usedSub hact r hu
    refine hS.resources h.node (hin h hh) x hx c hcx ?_ ?_ r hrh hr
    · rintro rfl
      exact hnd3 _ (List.mem_append_left _ (List.mem_map_of_mem hh)) _ hct rfl
    · intro hhc
      obtain ⟨a, ha, hac⟩ := Relation.TransGen.head'_iff.1 hhc
      have h1 : Recorded (exec C ms).trace a :=
        (recorded_iff hI hT).2 (hI.preds h hh a ha)
      have h2 := recorded_chain hG.wf ms (q := []) (by simp) h1 hac
      have h3 := (hI.doneIff c).1 ((recorded_iff hI hT).1 h2)
      exact hnd3 c (List.mem_append_right _ h3) c hct rfl

/-- every worker has nothing to do, except that it may be in a job of `S` -/
def OnlyIn (S : List Node) (s : St) : Prop :=
  ∀ n, s.worker n = .idle ∨ s.worker n = .finished ∨ (n ∈ S ∧ s.worker n = .running)

/-- **C87**.  At any moment at which no job of `S` has been left yet, the execution can go on to a
moment at which all jobs of `S` run, for every dag, if the tasks of `S` are independent and are to
be executed. -/
theorem C87_parallel (C : Cfg) (hG : Healthy C)
    (hra : ∀ a b, HasEdge C.dag .requires a b → AfterEdge C.dag a b) (S : List Node)
    (hS : Independent C S) (hex : ∀ x ∈ S, ∃ ms, JobBegan (exec C ms).trace x)
    (ms : List Move) (hact : (exec C ms).phase.active = true ∨ (exec C ms).phase = .created)
    (hfresh : ∀ x ∈ S, ¬ JobEnded (exec C ms).trace x) :
    ∃ ms', ∀ x ∈ S, Running (exec C (ms ++ ms')).trace x := by
  by_cases hne : S = []
  · exact ⟨[], by simp [hne]⟩
  obtain ⟨x0, hx0⟩ := List.exists_mem_of_ne_nil S hne
  have hk0 : C.threadCount ≠ 0 := by
    have h1 := hS.threads
    have h2 := List.length_pos_of_mem hx0
    omega
  have hwf := hG.wf
  have ex1 : ∀ ms m, exec C (ms ++ [m]) = step C (exec C ms) m := fun ms m => by simp [exec]
  have back : ∀ ms m, (∃ ms', ∀ x ∈ S, Running (exec C (ms ++ [m] ++ ms')).trace x) →
      ∃ ms', ∀ x ∈ S, Running (exec C (ms ++ ms')).trace x := by
    rintro ms m ⟨ms', h⟩
    exact ⟨m :: ms', by simpa using h⟩
  -- a job of `S` is never recorded while it is held
  have nofin : ∀ ms, (exec C ms).phase.active = true → Held S (exec C ms) →
      ∀ x ∈ S, x ∉ (exec C ms).toProcess → x ∈ (handles (exec C ms)).map Handle.node := by
    intro ms hact hheld x hx hxt
    have := (both_exec hwf ms).1.part hact x (Executes.node hwf (hex x hx))
    unfold allNodes at this
    simp only [List.mem_append] at this
    rcases this with (h | h) | h
    · exact h
    · exact absurd h (hheld.spec hwf hra hex ms hact hx).1
    · exact absurd h hxt
  have key : ∀ p ms, (exec C ms).phase.active = true → Held S (exec C ms) →
      remaining (exec C ms) ≤ p → ∃ ms', ∀ x ∈ S, Running (exec C (ms ++ ms')).trace x := by
    intro p
    induction p using Nat.strongRecOn with
    | ind p ih =>
    -- all jobs of `S` are in flight
    have done : ∀ ms, (exec C ms).phase.active = true → Held S (exec C ms) → OnlyIn S (exec C ms) →
        (∀ h ∈ handles (exec C ms), h.launched = true) →
        (∀ x ∈ S, x ∈ (handles (exec C ms)).map Handle.node) →
        ∃ ms', ∀ x ∈ S, Running (exec C (ms ++ ms')).trace x := by
      intro ms hact hheld hq hl h
      refine ⟨[], fun x hx => ?_⟩
      obtain ⟨y, hy, rfl⟩ := List.mem_map.1 (h x hx)
      rw [List.append_nil]
      apply running_of_worker hwf ms hact hy (hl y hy)
      rcases hq y.node with h1 | h1 | h1
      · exact absurd h1 ((both_exec hwf ms).1.launched y hy (hl y hy)).2.1
      · exact absurd h1 (hheld.spec hwf hra hex ms hact hx).2
      · exact h1.2
    -- one portion of the control thread
    have ctl : ∀ ms, (exec C ms).phase.active = true → (exec C ms).phase ≠ .finished →
        Held S (exec C ms) → OnlyIn S (exec C ms) → remaining (exec C ms) ≤ p →
        (Held S (exec C (ms ++ [.ctl])) → OnlyIn S (exec C (ms ++ [.ctl])) →
          remaining (exec C (ms ++ [.ctl])) = remaining (exec C ms) →
          ∃ ms', ∀ x ∈ S, Running (exec C (ms ++ [.ctl] ++ ms')).trace x) →
        ∃ ms', ∀ x ∈ S, Running (exec C (ms ++ ms')).trace x := by
      intro ms hact hnf hheld hq hr hgo
      apply back ms .ctl
      obtain ⟨p1, p2⟩ := ctl_progress hG (both_exec hwf ms).1 hact hnf
      have e : exec C (ms ++ [.ctl]) = ctlStep C (exec C ms) true := ex1 ms .ctl
      have hh : Held S (exec C (ms ++ [.ctl])) := by rw [e]; exact hheld.ctl hk0 hact
      rcases p2 with p2 | ⟨p2, p3, _⟩
      · exact ih _ (by rw [← e] at p2; exact Nat.lt_of_lt_of_le p2 hr) _ (by rw [e]; exact p1) hh
          (Nat.le_refl _)
      · exact hgo hh (by unfold OnlyIn; rw [e, p3]; exact hq) (by rw [e, p2])
    -- one element of the cleanup
    have keep : ∀ ms d sl rest, (exec C ms).phase = .clean d → (exec C ms).todo = sl :: rest →
        remaining (exec C (ms ++ [.ctl])) = remaining (exec C ms) →
        (exec C (ms ++ [.ctl])).phase = .clean d ∧ (exec C (ms ++ [.ctl])).todo = rest ∧
        (exec C (ms ++ [.ctl])).kept = (exec C ms).kept ++ [sl.h] ∧ sl.h.launched = true ∧
        (exec C ms).worker sl.h.node ≠ .finished := by
      intro ms d sl rest hp ht hr
      have hI := (both_exec hwf ms).1
      have e : exec C (ms ++ [.ctl]) = cleanStep C (exec C ms) true d := by
        rw [ex1]; simp only [step, ctlStep, hp]
      obtain ⟨c1, c2, _⟩ := ctl_clean hG hI hp ht
      rcases c2 with c2 | ⟨_, _, _, c3, c4⟩
      · rw [e] at hr; omega
      · rw [e]
        refine ⟨c1, ?_, ?_, c3, c4⟩ <;> unfold cleanStep <;> rw [ht] <;> simp [c3, c4]
    -- the end of a pass of the cleanup in which only jobs of `S` were kept
    have endS : ∀ ms d, (exec C ms).phase = .clean d → (exec C ms).todo = [] →
        Held S (exec C ms) → OnlyIn S (exec C ms) → remaining (exec C ms) ≤ p →
        (∀ h ∈ (exec C ms).kept, h.node ∈ S) →
        ∃ ms', ∀ x ∈ S, Running (exec C (ms ++ ms')).trace x := by
      intro ms d hp ht hheld hq hr hkept
      have hact : (exec C ms).phase.active = true := by rw [hp]; rfl
      have hI := (both_exec hwf ms).1
      have hh : handles (exec C ms) = (exec C ms).kept := by simp [handles, ht]
      cases d with
      | true =>
        apply done ms hact hheld hq
        · rw [hh]; exact hI.keptLaunched
        · intro x hx
          apply nofin ms hact hheld x hx
          rw [hI.drain (by rw [hp]; rfl)]; simp
      | false =>
        refine ctl ms hact (by rw [hp]; simp) hheld hq hr (fun hheld' hq' hr' => ?_)
        have e : exec C (ms ++ [.ctl]) = cleanStep C (exec C ms) true false := by
          rw [ex1]; simp only [step, ctlStep, hp]
        have hp' : (exec C (ms ++ [.ctl])).phase = .pick := by
          rw [e]; unfold cleanStep; rw [ht]; rfl
        have hact' : (exec C (ms ++ [.ctl])).phase.active = true := by rw [hp']; rfl
        have hh' : handles (exec C (ms ++ [.ctl])) = (exec C ms).kept := by
          rw [e]; unfold cleanStep; rw [ht]
          simp [handles, zip_h hI.passedLen]
        rcases pick_more hG hra hS hex (ms ++ [.ctl]) hp' hheld'
          (by rw [hh']; exact hkept) with h | h
        · apply done _ hact' hheld' hq'
          · rw [hh']; exact hI.keptLaunched
          · intro x hx
            obtain ⟨y, hy, rfl⟩ := h x hx
            exact List.mem_map_of_mem hy
        · refine back (ms ++ [Move.ctl]) Move.ctl ?_
          have e2 : exec C (ms ++ [.ctl] ++ [.ctl]) = pickStep C (exec C (ms ++ [.ctl])) := by
            rw [ex1 (ms ++ [Move.ctl]) Move.ctl]; simp only [step, ctlStep, hp']
          obtain ⟨c1, _⟩ := pick_cases hG (both_exec hwf (ms ++ [.ctl])).1 hp'
          refine ih _ (Nat.lt_of_lt_of_le h (by omega)) _ (by rw [e2, c1]; rfl) ?_ (by rw [e2])
          have := hheld'.ctl hk0 hact'
          rw [e2]
          simpa only [ctlStep, hp'] using this
    -- a pass of the cleanup in which only jobs of `S` are kept
    have cleanS : ∀ k ms d, (exec C ms).phase = .clean d → (exec C ms).todo.length = k →
        Held S (exec C ms) → OnlyIn S (exec C ms) → remaining (exec C ms) ≤ p →
        (∀ h ∈ (exec C ms).kept, h.node ∈ S) →
        ∃ ms', ∀ x ∈ S, Running (exec C (ms ++ ms')).trace x := by
      intro k
      induction k with
      | zero =>
        intro ms d hp hlen
        exact endS ms d hp (List.length_eq_zero_iff.1 hlen)
      | succ k ihk =>
        intro ms d hp hlen hheld hq hr hkept
        have hact : (exec C ms).phase.active = true := by rw [hp]; rfl
        have hI := (both_exec hwf ms).1
        cases ht : (exec C ms).todo with
        | nil => rw [ht] at hlen; simp at hlen
        | cons sl rest =>
          refine ctl ms hact (by rw [hp]; simp) hheld hq hr (fun hheld' hq' hr' => ?_)
          obtain ⟨k1, k2, k3, k4, k5⟩ := keep ms d sl rest hp ht hr'
          rw [ht] at hlen
          refine ihk _ d k1 (by rw [k2]; simpa using hlen) hheld' hq' (by omega) ?_
          intro h hh
          rw [k3] at hh
          rcases List.mem_append.1 hh with hh | hh
          · exact hkept h hh
          · rw [List.mem_singleton] at hh
            subst hh
            rcases hq sl.h.node with h1 | h1 | h1
            · exact absurd h1 (hI.launched _ (Inv.slot_mem ht) k4).2.1
            · exact absurd h1 k5
            · exact h1.1
    -- the start of a pass
    have top : ∀ ms, (exec C ms).phase = .loopTop ∨ (exec C ms).phase = .drainTop →
        Held S (exec C ms) → OnlyIn S (exec C ms) → remaining (exec C ms) ≤ p →
        ∃ ms', ∀ x ∈ S, Running (exec C (ms ++ ms')).trace x := by
      have drain : ∀ ms, (exec C ms).phase = .drainTop →
          Held S (exec C ms) → OnlyIn S (exec C ms) → remaining (exec C ms) ≤ p →
          ∃ ms', ∀ x ∈ S, Running (exec C (ms ++ ms')).trace x := by
        intro ms hp hheld hq hr
        have hact : (exec C ms).phase.active = true := by rw [hp]; rfl
        have hI := (both_exec hwf ms).1
        have hk := (hI.notClean hact (by rw [hp]; rfl)).1
        have ht : (exec C ms).todo ≠ [] := by
          intro ht
          have := nofin ms hact hheld x0 hx0 (by rw [hI.drain (by rw [hp]; rfl)]; simp)
          simp [handles, hk, ht] at this
        refine ctl ms hact (by rw [hp]; simp) hheld hq hr (fun hheld' hq' hr' => ?_)
        have e : exec C (ms ++ [.ctl]) = { exec C ms with phase := .clean true } := by
          rw [ex1]; simp only [step, ctlStep, hp, if_neg ht]
        refine cleanS _ _ true (by rw [e]) rfl hheld' hq' (by omega) ?_
        rw [e]; simp only; rw [hk]; simp
      intro ms hp hheld hq hr
      rcases hp with hp | hp
      · have hact : (exec C ms).phase.active = true := by rw [hp]; rfl
        have hI := (both_exec hwf ms).1
        have hk := (hI.notClean hact (by rw [hp]; rfl)).1
        refine ctl ms hact (by rw [hp]; simp) hheld hq hr (fun hheld' hq' hr' => ?_)
        by_cases htp : (exec C ms).toProcess = []
        · refine drain _ ?_ hheld' hq' (by omega)
          rw [ex1]; simp only [step, ctlStep, hp, htp, if_true]
        · have e : exec C (ms ++ [.ctl]) =
              { (exec C ms).emit (.onTick (exec C ms).erec) with phase := .clean false } := by
            rw [ex1]; simp only [step, ctlStep, hp, if_neg htp]
          refine cleanS _ _ false (by rw [e]) rfl hheld' hq' (by omega) ?_
          rw [e]; simp only [St.emit]; rw [hk]; simp
      · exact drain ms hp hheld hq hr
    have susp : ∀ ms d, (exec C ms).phase = .susp d →
        Held S (exec C ms) → OnlyIn S (exec C ms) → remaining (exec C ms) ≤ p →
        ∃ ms', ∀ x ∈ S, Running (exec C (ms ++ ms')).trace x := by
      intro ms d hp hheld hq hr
      refine ctl ms (by rw [hp]; rfl) (by rw [hp]; simp) hheld hq hr (fun hheld' hq' hr' => ?_)
      refine top _ ?_ hheld' hq' (by omega)
      rw [ex1]; simp only [step, ctlStep, hp]
      cases d <;> simp
    have pick : ∀ ms, (exec C ms).phase = .pick →
        Held S (exec C ms) → OnlyIn S (exec C ms) → remaining (exec C ms) ≤ p →
        ∃ ms', ∀ x ∈ S, Running (exec C (ms ++ ms')).trace x := by
      intro ms hp hheld hq hr
      refine ctl ms (by rw [hp]; rfl) (by rw [hp]; simp) hheld hq hr (fun hheld' hq' hr' => ?_)
      refine susp _ false ?_ hheld' hq' (by omega)
      rw [ex1]; simp only [step, ctlStep, hp]
      exact (pick_cases hG (both_exec hwf ms).1 hp).1
    have clean : ∀ k ms d, (exec C ms).phase = .clean d → (exec C ms).todo.length = k →
        Held S (exec C ms) → OnlyIn S (exec C ms) → remaining (exec C ms) ≤ p →
        ∃ ms', ∀ x ∈ S, Running (exec C (ms ++ ms')).trace x := by
      intro k
      induction k with
      | zero =>
        intro ms d hp hlen hheld hq hr
        have ht : (exec C ms).todo = [] := List.length_eq_zero_iff.1 hlen
        refine ctl ms (by rw [hp]; rfl) (by rw [hp]; simp) hheld hq hr (fun hheld' hq' hr' => ?_)
        have e : exec C (ms ++ [.ctl]) = cleanStep C (exec C ms) true d := by
          rw [ex1]; simp only [step, ctlStep, hp]
        cases d with
        | true =>
          refine susp _ true ?_ hheld' hq' (by omega)
          rw [e]; unfold cleanStep; rw [ht]; rfl
        | false =>
          refine pick _ ?_ hheld' hq' (by omega)
          rw [e]; unfold cleanStep; rw [ht]; rfl
      | succ k ihk =>
        intro ms d hp hlen hheld hq hr
        cases ht : (exec C ms).todo with
        | nil => rw [ht] at hlen; simp at hlen
        | cons sl rest =>
          refine ctl ms (by rw [hp]; rfl) (by rw [hp]; simp) hheld hq hr
            (fun hheld' hq' hr' => ?_)
          obtain ⟨k1, k2, _⟩ := keep ms d sl rest hp ht hr'
          rw [ht] at hlen
          exact ihk _ d k1 (by rw [k2]; simpa using hlen) hheld' hq' (by omega)
    intro ms hact hheld hr
    by_cases hq : OnlyIn S (exec C ms)
    · cases hp : (exec C ms).phase with
      | loopTop => exact top ms (.inl hp) hheld hq hr
      | drainTop => exact top ms (.inr hp) hheld hq hr
      | clean d => exact clean _ ms d hp rfl hheld hq hr
      | pick => exact pick ms hp hheld hq hr
      | susp d => exact susp ms d hp hheld hq hr
      | finished =>
        exfalso
        have hI := (both_exec hwf ms).1
        have hk := (hI.notClean hact (by rw [hp]; rfl)).1
        have := nofin ms hact hheld x0 hx0 (by rw [hI.drain (by rw [hp]; rfl)]; simp)
        simp [handles, hk, hI.finishedEmpty hp] at this
      | _ => rw [hp] at hact; cases hact
    · unfold OnlyIn at hq
      simp only [not_forall, not_or] at hq
      obtain ⟨n, h1, h2, h3⟩ := hq
      have hw := worker_progress (both_exec hwf ms).1 hact n
      cases h : (exec C ms).worker n with
      | idle => exact absurd h h1
      | finished => exact absurd h h2
      | queued =>
        obtain ⟨p1, p2⟩ := hw.1 h
        refine back ms (.begin n) ?_
        rw [← ex1] at p1 p2
        refine ih _ (Nat.lt_of_lt_of_le p2 hr) _ (by rw [p1]; exact hact) ?_ (Nat.le_refl _)
        rw [ex1]; exact hheld.begin n
      | running =>
        obtain ⟨p1, p2⟩ := hw.2.2.1 h
        refine back ms (.finish n) ?_
        rw [← ex1] at p1 p2
        refine ih _ (Nat.lt_of_lt_of_le p2 hr) _ (by rw [p1]; exact hact) ?_ (Nat.le_refl _)
        rw [ex1]; exact hheld.finish (fun hn => h3 ⟨hn, h⟩)
  rcases hact with hact | hc
  · exact key _ ms hact hfresh (Nat.le_refl _)
  · have h1 : exec C (ms ++ [.ctl]) = prologue C St.init := by
      rw [ex1, (inv_exec hG.wf ms).createdInit hc]; rfl
    apply back ms .ctl
    apply key _ _ (by rw [h1, prologue_healthy hG]; rfl) _ (Nat.le_refl _)
    intro x hx hj
    unfold JobEnded at hj
    rw [h1] at hj
    rcases prologue_spec hwf with ⟨h, _⟩ | ⟨_, _, _, evs, ht, he, _⟩ | ⟨_, pre, n, post, _, _, _, ht, _⟩
    · exact hG.acyclic h
    · rw [ht] at hj
      simp only [List.cons_append, List.mem_cons, reduceCtorEq, List.mem_append, List.mem_map,
        and_false, exists_false, false_or] at hj
      obtain ⟨_, _, h, _⟩ := he _ hj
      cases h
    · rw [ht] at hj
      simp at hj

/-- **C87**, for tasks that are ordered after nothing: which of them can run at one moment is
exactly what the thread limit (C04) and the resources (C03) allow. -/
theorem C87_exact (C : Cfg) (hG : Healthy C)
    (hra : ∀ a b, HasEdge C.dag .requires a b → AfterEdge C.dag a b) (S : List Node)
    (hnd : S.Nodup) (hne : S ≠ []) (hfree : ∀ x ∈ S, ∀ y, ¬ AfterEdge C.dag x y)
    (hex : ∀ x ∈ S, ∃ ms, JobBegan (exec C ms).trace x) :
    (∃ ms, ∀ x ∈ S, Running (exec C ms).trace x) ↔
      S.length ≤ C.threadCount ∧
      ∀ x ∈ S, ∀ y ∈ S, x ≠ y → ∀ r ∈ C.resources x, r ∉ C.resources y := by
  constructor
  · rintro ⟨ms, h⟩
    refine ⟨?_, fun x hx y hy hxy =>
      C03_resource_exclusivity C hG.wf ms _ [] (by simp) x y (h x hx) (h y hy) hxy⟩
    have h1 := (C04_thread_limit C hG.wf ms _ [] (by simp)).1 S hnd h
    obtain ⟨x, hx⟩ := List.exists_mem_of_ne_nil S hne
    split at h1
    · rename_i h0
      exact absurd (h x hx) (C04_sequential C hG.wf h0 ms x)
    · exact h1
  · rintro ⟨h1, h2⟩
    have hS : Independent C S := by
      refine ⟨hnd, h1, fun x hx y _ h => ?_, fun x hx z hz y h hne _ => ?_⟩
      · obtain ⟨a, ha, _⟩ := Relation.TransGen.head'_iff.1 h
        exact hfree x hx a ha
      · rcases Relation.ReflTransGen.cases_head h with rfl | ⟨a, ha, _⟩
        · exact h2 x hx z hz hne
        · exact absurd ha (hfree z hz a)
    obtain ⟨ms, h⟩ := C87_parallel C hG hra S hS hex [] (.inr rfl)
      (fun x _ h => by simp [JobEnded, exec, St.init] at h)
    exact ⟨ms, h⟩

/-- **C85**.  Where the condition of C85 is violated by two nodes that are to be executed and are
independent, a data race can happen. -/
theorem C85_race (C : Cfg) (hG : Healthy C)
    (hra : ∀ a b, HasEdge C.dag .requires a b → AfterEdge C.dag a b) (x y : Node)
    (hxy : Independent C [x, y]) (ht : C.dag.task x = C.dag.task y)
    (hex : ∀ n ∈ [x, y], ∃ ms, JobBegan (exec C ms).trace n) :
    ∃ ms i j, DataRace C.dag (exec C ms).trace i j := by
  obtain ⟨ms, h⟩ := C87_parallel C hG hra [x, y] hxy hex [] (.inr rfl)
    (fun x _ h => by simp [JobEnded, exec, St.init] at h)
  refine ⟨ms, race_of_overlap _ _ x y (h x (by simp)) (h y (by simp)) ?_ ht ?_⟩
  · have := hxy.nodup
    simpa using this
  · rintro ⟨n, hn⟩
    have h1 := ((C04_thread_limit C hG.wf ms _ [] (by simp)).2 n true hn).1 rfl
    have h2 := hxy.threads
    simp at h2
    omega

/-- two nodes for one task, without resources -/
example : Independent (Ex.twice []) [1, 2] ∧ (Ex.twice []).dag.task 1 = (Ex.twice []).dag.task 2 ∧
    ∀ n ∈ [1, 2], ∃ ms, JobBegan (exec (Ex.twice []) ms).trace n := by
  refine ⟨⟨by decide, by decide, ?_, ?_⟩, rfl, ?_⟩
  · intro x _ y _ h
    obtain ⟨a, ha, _⟩ := Relation.TransGen.head'_iff.1 h
    simp [AfterEdge, HasEdge, Ex.twice] at ha
  · intro x _ z _ y _ _ _ r hr
    simp [Ex.twice] at hr
  · intro n hn
    have : ∀ n ∈ [1, 2], Event.jobBegin n false ∈
        (exec (Ex.twice []) (List.replicate 20 .ctl ++ [.begin 1, .begin 2])).trace := by
      decide +kernel
    exact ⟨_, false, this n hn⟩

/-- the history only grows -/
theorem exec_grows (hwf : C.dag.WF) (ms ms' : List Move) :
    (exec C ms).trace <+: (exec C (ms ++ ms')).trace := by
  induction ms' using List.reverseRecOn with
  | nil => simp
  | append_singleton ms' m ih =>
    obtain ⟨evs, h1, _⟩ := step_events hwf (inv_exec hwf (ms ++ ms')) m
    rw [← List.append_assoc, exec_snoc, h1]
    exact ih.trans (List.prefix_append _ _)

/-- 3 is ordered after 2; 1 and 2 have a common resource, 1 and 3 have none -/
def Ex.late (r2 : List Res) : Cfg where
  dag := { nodes := [3, 2, 1], edges := [⟨3, 2, .after⟩], name := fun _ => [], task := id }
  resources := fun n => if n = 1 then [7] else if n = 2 then r2 else []
  hasJob := fun _ => true
  ask := fun _ => .answer ⟨true, []⟩
  outcome := fun _ => Ex.ret 0 []
  threadCount := 2

theorem Ex.late_wf (r2 : List Res) : (Ex.late r2).dag.WF := by
  constructor <;> simp [Ex.late]

theorem Ex.late_edge {r2 : List Res} {k : EKind} {a b : Node}
    (h : HasEdge (Ex.late r2).dag k a b) : k = .after ∧ a = 3 ∧ b = 2 := by
  simp only [HasEdge, Ex.late, List.mem_singleton, Edge.mk.injEq] at h
  exact ⟨h.2.2, h.1, h.2.1⟩

theorem Ex.late_trans {r2 : List Res} {a b : Node}
    (h : Relation.TransGen (AfterEdge (Ex.late r2).dag) a b) : a = 3 ∧ b = 2 := by
  induction h with
  | single h => exact (Ex.late_edge h).2
  | tail _ h ih =>
    have := (Ex.late_edge h).2
    rw [ih.2] at this
    exact absurd this.1 (by decide)

theorem Ex.late_healthy (r2 : List Res) : Healthy (Ex.late r2) where
  wf := Ex.late_wf r2
  acyclic := by
    rintro ⟨n, h⟩
    have := Ex.late_trans h
    rw [this.1] at this
    exact absurd this.2 (by decide)
  jobs := fun _ _ => rfl
  answers := fun _ _ => ⟨_, rfl⟩
  codes := by
    rintro n _ rr h
    simp only [Ex.late, Ex.ret, JobOut.ret.injEq] at h
    rw [← h]; simp

/-- the hypotheses hold for 1 and 3 if 2 needs another resource, and there is something to be done
before the two run at one moment -/
example : Independent (Ex.late [8]) [1, 3] ∧
    (∀ x ∈ [1, 3], ∃ ms, JobBegan (exec (Ex.late [8]) ms).trace x) ∧
    AfterEdge (Ex.late [8]).dag 3 2 ∧ 8 ∈ (Ex.late [8]).resources 2 := by
  refine ⟨⟨by decide, by decide, ?_, ?_⟩, ?_, ?_, ?_⟩
  · intro x hx y hy h
    have := Ex.late_trans h
    rw [this.2] at hy
    exact absurd hy (by decide)
  · intro x hx z hz y h hne _ r hr hr'
    simp only [List.mem_cons, List.not_mem_nil, or_false] at hx hz
    rcases hx with rfl | rfl
    · have h7 : r = 7 := by simpa [Ex.late] using hr
      subst h7
      have h1 : y ≠ 1 := fun e => hne e.symm
      simp only [Ex.late, h1, if_false] at hr'
      split at hr' <;> simp at hr'
    · simp [Ex.late] at hr
  · intro x hx
    refine ⟨List.replicate 20 .ctl ++ [.begin 1, .begin 2, .finish 2] ++ List.replicate 20 .ctl ++
      [.begin 3], false, ?_⟩
    have : ∀ x ∈ [1, 3], Event.jobBegin x false ∈ (exec (Ex.late [8]) (List.replicate 20 .ctl ++
      [.begin 1, .begin 2, .finish 2] ++ List.replicate 20 .ctl ++ [.begin 3])).trace := by
      decide +kernel
    exact this x hx
  · show (⟨3, 2, .after⟩ : Edge) ∈ (Ex.late [8]).dag.edges
    decide
  · decide

/-- **C87**.  The condition on the resources of earlier tasks is needed.  Here 1 and 3 are not
ordered, have no common resource, and there are threads for both; but 1, which is started at once,
keeps 2 from being started, and 3 has to wait for 2: the two never run at one moment. -/
theorem C87_needed :
    ¬ Relation.TransGen (AfterEdge (Ex.late [7]).dag) 1 3 ∧
    ¬ Relation.TransGen (AfterEdge (Ex.late [7]).dag) 3 1 ∧
    (∀ r ∈ (Ex.late [7]).resources 1, r ∉ (Ex.late [7]).resources 3) ∧
    (∀ x ∈ [1, 3], ∃ ms, JobBegan (exec (Ex.late [7]) ms).trace x) ∧
    ∃ ms, (exec (Ex.late [7]) ms).phase.active = true ∧ Running (exec (Ex.late [7]) ms).trace 1 ∧
      ∀ ms', ¬ (Running (exec (Ex.late [7]) (ms ++ ms')).trace 1 ∧
        Running (exec (Ex.late [7]) (ms ++ ms')).trace 3) := by
  refine ⟨fun h => absurd (Ex.late_trans h).1 (by decide),
    fun h => absurd (Ex.late_trans h).2 (by decide), by decide, ?_, ?_⟩
  · intro x hx
    refine ⟨List.replicate 20 .ctl ++ [.begin 1, .finish 1] ++ List.replicate 20 .ctl ++
      [.begin 2, .finish 2] ++ List.replicate 20 .ctl ++ [.begin 3], false, ?_⟩
    have : ∀ x ∈ [1, 3], Event.jobBegin x false ∈ (exec (Ex.late [7]) (List.replicate 20 .ctl ++
        [.begin 1, .finish 1] ++ List.replicate 20 .ctl ++
        [.begin 2, .finish 2] ++ List.replicate 20 .ctl ++ [.begin 3])).trace := by
      decide +kernel
    exact this x hx
  · refine ⟨List.replicate 20 .ctl ++ [.begin 1], by decide +kernel,
      ⟨⟨false, by decide +kernel⟩, by show Event.jobEnd 1 ∉ _; decide +kernel⟩, ?_⟩
    rintro ms' ⟨⟨h1, h1'⟩, ⟨b, h3⟩, _⟩
    have hwf := Ex.late_wf [7]
    have hno : ∀ b, Event.jobBegin 2 b ∉
        (exec (Ex.late [7]) (List.replicate 20 .ctl ++ [.begin 1])).trace := by
      have : ∀ e ∈ (exec (Ex.late [7]) (List.replicate 20 .ctl ++ [.begin 1])).trace,
          ∀ b, e ≠ .jobBegin 2 b := by decide +kernel
      intro b hb
      exact this _ hb b rfl
    have h10 : Event.jobBegin 1 false ∈
        (exec (Ex.late [7]) (List.replicate 20 .ctl ++ [.begin 1])).trace := by decide +kernel
    generalize List.replicate 20 Move.ctl ++ [Move.begin 1] = ms at *
    -- 2 was executed before 3
    obtain ⟨p, q, hpq⟩ := List.append_of_mem h3
    obtain ⟨⟨r, hr, hr2⟩, _⟩ := C01_ordering _ hwf (ms ++ ms') p q 3 2 b hpq
      (by show (⟨3, 2, .after⟩ : Edge) ∈ (Ex.late [7]).dag.edges; decide)
    have hr' : r ∈ recsOf (exec (Ex.late [7]) (ms ++ ms')).trace := by
      rw [hpq]; unfold recsOf at hr ⊢; rw [List.filterMap_append]
      exact List.mem_append_left _ hr
    have h2 : JobBegan (exec (Ex.late [7]) (ms ++ ms')).trace 2 := by
      obtain ⟨hI, hT⟩ := both_exec hwf (ms ++ ms')
      rw [← hr2]
      refine (C08_executed_iff_stale _ hwf _ r hr' ?_).2
        ⟨r.node, .refl, [], rfl⟩
      intro hd
      obtain ⟨_, _, m, hm, _⟩ := (hI.recs r (hT.recs ▸ hr')).depf hd
      exact absurd (Ex.late_edge hm).1 (by decide)
    -- it began after 1, and 1 is still running
    obtain ⟨ext, hext⟩ := exec_grows hwf ms ms'
    obtain ⟨b2, h2⟩ := h2
    rw [← hext] at h2
    have h2 := (List.mem_append.1 h2).resolve_left (hno b2)
    obtain ⟨u, v, huv⟩ := List.append_of_mem h2
    have htr : (exec (Ex.late [7]) (ms ++ ms')).trace =
        ((exec (Ex.late [7]) ms).trace ++ u ++ [.jobBegin 2 b2]) ++ v := by
      rw [← hext, huv]; simp
    have hno2 : ¬ JobEnded ((exec (Ex.late [7]) ms).trace ++ u ++ [.jobBegin 2 b2]) 2 := by
      intro h
      have h : Event.jobEnd 2 ∈ (exec (Ex.late [7]) ms).trace ++ u := by
        unfold JobEnded at h
        rcases List.mem_append.1 h with h | h
        · exact h
        · simp at h
      obtain ⟨i, hi⟩ := List.getElem?_of_mem h
      have hlt : i < ((exec (Ex.late [7]) ms).trace ++ u).length := by
        by_contra hle
        rw [List.getElem?_eq_none (by omega)] at hi
        cases hi
      have hi' : (exec (Ex.late [7]) (ms ++ ms')).trace[i]? = some (.jobEnd 2) := by
        rw [htr, List.append_assoc, List.getElem?_append_left hlt]; exact hi
      have hj' : (exec (Ex.late [7]) (ms ++ ms')).trace[((exec (Ex.late [7]) ms).trace ++ u).length]?
          = some (.jobBegin 2 b2) := by
        rw [htr, List.append_assoc, List.getElem?_append_right (Nat.le_refl _)]; simp
      have := tag_order (n := 2) (x := .end) (y := .begin b2) hwf (ms ++ ms') hi' hj' (by simp [tagOf])
        (by simp [tagOf]) hlt
      simp [Tag.rank] at this
    refine C03_resource_exclusivity _ hwf (ms ++ ms') _ _ htr 1 2 ?_ ?_ (by decide) 7 (by decide)
      (by decide)
    · refine ⟨⟨false, by simp [h10]⟩, fun h => h1' ?_⟩
      unfold JobEnded at h ⊢
      rw [htr]; exact List.mem_append_left _ h
    · exact ⟨⟨b2, by simp⟩, hno2⟩

end Joque
