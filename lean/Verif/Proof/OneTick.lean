import Verif.Proof.Metered
import Verif.Proof.Pace

/-! # The number of ticks with one thread -/

namespace Joque

variable {C : Cfg} {d : Node → Nat}

/-- jobs found finished have taken the given numbers of ticks -/
def TookSoFar (d : Node → Nat) (tr : List Event) : Prop :=
  ∀ n j k, LaunchedIn tr n j → FoundIn tr n k → k = j + d n

theorem TookSoFar.of_append {a b : List Event} (h : TookSoFar d (a ++ b)) : TookSoFar d a :=
  fun n j k h1 h2 => h n j k h1.grow h2.grow

theorem took_push_run {er : ExecRecord} {r : RunRecord} (h : r.status = .ok ∨ r.status = .fail) :
    (er.push r).took d = er.took d + d r.node := by
  simp [ExecRecord.took, ExecRecord.push, List.filter_append, List.filter_cons, if_pos h]

theorem took_push_not {er : ExecRecord} {r : RunRecord} (h : ¬ (r.status = .ok ∨ r.status = .fail)) :
    (er.push r).took d = er.took d := by
  simp [ExecRecord.took, ExecRecord.push, List.filter_append, List.filter_cons, if_neg h]

/-- no job is on a thread -/
def FreeTick (C : Cfg) (d : Node → Nat) (s : St) : Prop :=
  match s.phase with
  | .loopTop | .clean _ | .pick => C.dag.nodes.length + 1 + s.erec.took d = s.tick + s.toProcess.length
  | .susp false => C.dag.nodes.length + s.erec.took d = s.tick + s.toProcess.length
  | .susp true => s.todo = [] ∧ C.dag.nodes.length + 1 + s.erec.took d = s.tick + s.toProcess.length
  | .drainTop => (s.todo ≠ [] → C.dag.nodes.length + 1 + s.erec.took d = s.tick + s.toProcess.length) ∧
      (s.todo = [] → C.dag.nodes.length = 0 ∨
        C.dag.nodes.length + 2 + s.erec.took d = s.tick + s.toProcess.length)
  | .finished => C.dag.nodes.length = 0 ∨
        C.dag.nodes.length + 2 + s.erec.took d = s.tick + s.toProcess.length
  | _ => True

/-- the number of the tick, or of the one in which the thread of the job under way was created -/
structure OneTick (C : Cfg) (d : Node → Nat) (s : St) : Prop where
  busy : s.phase.active = true → ∀ h ∈ handles s, h.launched = true → ∀ j, LaunchedIn s.trace h.node j →
    C.dag.nodes.length + 1 + s.erec.took d = j + s.toProcess.length
  free : (∀ h ∈ handles s, h.launched = false) → FreeTick C d s

theorem OneTick.inactive {s : St} (h : s.phase.active = false) : OneTick C d s := by
  refine ⟨fun h' => absurd h' (by rw [h]; simp), fun _ => ?_⟩
  unfold FreeTick
  split <;> rename_i hp <;> first | trivial | (rw [hp] at h; cases h)

/-- a portion that begins no tick, creates no thread and settles nothing -/
theorem OneTick.busy_mono {s s' : St} (h : OneTick C d s) (hact : s.phase.active = true) {evs : List Event}
    (ht : s'.trace = s.trace ++ evs) (hev : ∀ n, .launch n ∉ evs)
    (hh : ∀ x ∈ handles s', x.launched = true → x ∈ handles s) (he : s'.erec = s.erec)
    (htp : ∀ x ∈ handles s', x.launched = true → s'.toProcess = s.toProcess) :
    s'.phase.active = true → ∀ x ∈ handles s', x.launched = true → ∀ j, LaunchedIn s'.trace x.node j →
      C.dag.nodes.length + 1 + s'.erec.took d = j + s'.toProcess.length := by
  intro _ x hx hl j hj
  rw [ht] at hj
  rcases hj.split with hj | ⟨i, hj, _⟩
  · rw [he, htp x hx hl]
    exact h.busy hact x (hh x hx hl) hl j hj
  · exact absurd hj.mem (hev _)

theorem collect_erec {s : St} {ref : Node} {h : Handle} {rest : List Slot} {rc : Int}
    (hrc : (asyncLambda (C.outcome h.node)).retcode = some rc) :
    (collect C s ref h rest).erec.took d = s.erec.took d + d h.node := by
  unfold collect
  simp only [hrc]
  simp only [complete]
  have : ∀ (er : ExecRecord) r, r.node = h.node → (r.status = .ok ∨ r.status = .fail) →
      (er.push r).took d = er.took d + d h.node := by
    intro er r h1 h2
    rw [took_push_run h2, h1]
  refine (this _ _ rfl (by dsimp only; split <;> simp)).trans ?_
  split <;> rfl

theorem one_clean (hc : C.threadCount = 1) {s : St} (hI : Inv C s) (hT : TInv C s) (h : OneTick C d s)
    {b : Bool} (hp : s.phase = .clean b) (ok : Bool) (hd : TookSoFar d (cleanStep C s ok b).trace) :
    OneTick C d (cleanStep C s ok b) := by
  have hact : s.phase.active = true := by rw [hp]; rfl
  cases ht : s.todo with
  | nil =>
    have hz := zip_h (p := s.passed) (k := s.kept) hI.passedLen
    have hst : cleanStep C s ok b = { s with
        todo := List.zipWith Slot.mk s.passed s.kept
        kept := []
        passed := []
        phase := if b then .susp true else .pick } := by
      unfold cleanStep; rw [ht]
    have hhd : ∀ x, x ∈ handles (cleanStep C s ok b) ↔ x ∈ handles s := by
      intro x; rw [hst]; simp [handles, hz, ht]
    refine ⟨h.busy_mono hact (evs := []) (by rw [hst]; simp) (by simp) (fun x hx _ => (hhd x).1 hx)
      (by rw [hst]) (fun _ _ _ => by rw [hst]), fun hf => ?_⟩
    have hF := h.free fun x hx => hf x ((hhd x).2 hx)
    unfold FreeTick at hF
    rw [hp] at hF
    rw [hst]
    cases b
    · exact hF
    · refine ⟨?_, hF⟩
      have hk : s.kept = [] := by
        rw [List.eq_nil_iff_forall_not_mem]
        intro x hx
        have h1 := hf x ((hhd x).2 (by simp [handles, hx]))
        rw [hI.keptLaunched x hx] at h1
        cases h1
      simp [hk]
  | cons sl rest =>
    have hmem : sl.h ∈ handles s := Inv.slot_mem ht
    have hcap := hI.cap (by rw [hc]; simp)
    rw [hc] at hcap
    simp only [handles, ht, List.map_cons, List.length_append, List.length_cons, List.length_map] at hcap
    have hk : s.kept = [] := List.length_eq_zero_iff.1 (by omega)
    have hr : rest = [] := List.length_eq_zero_iff.1 (by omega)
    subst hr
    have hhs : handles s = [sl.h] := by simp [handles, ht, hk]
    -- the task is settled
    have settled : ∀ s' : St, s'.kept = s.kept → s'.todo = [] → s'.phase = .clean b →
        C.dag.nodes.length + 1 + s'.erec.took d = s'.tick + s'.toProcess.length → OneTick C d s' := by
      intro s' h1 h2 h3 h4
      have e : handles s' = [] := by simp [handles, h1, h2, hk]
      refine ⟨fun _ x hx => absurd hx (by rw [e]; simp), fun _ => ?_⟩
      unfold FreeTick
      rw [h3]
      exact h4
    revert hd
    unfold cleanStep
    rw [ht]
    dsimp only
    split
    · rename_i hl
      intro _
      have hl : sl.h.launched = false := by simpa using hl
      have hF := h.free (by rw [hhs]; simpa using hl)
      unfold FreeTick at hF
      rw [hp] at hF
      dsimp only at hF
      have hlife := hT.life_fresh hact hmem hl
      have hno : ∀ j, ¬ LaunchedIn s.trace sl.h.node j := by
        intro j hj
        have := launch_mem_life.1 hj.mem
        rw [hlife] at this
        cases this
      unfold startRun
      simp only
      split
      · exact .inactive rfl
      · split
        · refine settled _ rfl rfl hp ?_
          simp only [complete, St.emit]
          rw [took_push_not (by simp)]
          simpa [St.tick] using hF
        · split
          · refine settled _ rfl rfl hp ?_
            simp only [complete, St.emit]
            rw [took_push_not (by simp)]
            simpa [St.tick] using hF
          · rw [if_neg (by rw [hc]; simp)]
            split
            · refine ⟨fun _ x hx hxl j hj => ?_, fun hf => ?_⟩
              · simp only [handles, St.emit, hk, List.map_cons, List.map_nil, List.nil_append,
                  List.mem_singleton] at hx
                subst hx
                dsimp only [St.emit] at hj ⊢
                have hj : LaunchedIn (s.trace ++ [.beforeRun s.erec sl.h.node, .launch sl.h.node])
                  sl.h.node j := by simpa using hj
                rcases hj.split with hj | ⟨i, ⟨p, q, e, rfl⟩, rfl⟩
                · exact absurd hj (hno j)
                · rcases p with _ | ⟨a, _ | ⟨a', p⟩⟩
                  · simp at e
                  · simp at e
                    rw [← e.1]
                    simpa [St.tick] using hF
                  · simp at e
              · have := hf { sl.h with launched := true, start := s.now } (by simp [handles])
                cases this
            · exact .inactive rfl
    · rename_i hl
      have hl : sl.h.launched = true := by simpa using hl
      split
      · intro hd
        cases hrc : (asyncLambda (C.outcome sl.h.node)).retcode with
        | none =>
          refine .inactive ?_
          unfold collect
          simp only [hrc]
          rfl
        | some rc =>
          obtain ⟨log, r, c0, c01, c02⟩ := collect_trace (C := C) (s := s) (ref := sl.ref) (h := sl.h)
            (rest := []) hrc
          obtain ⟨c1, c2, c3, c4, c5, -⟩ := remaining_collect (C := C) (s := s) (ref := sl.ref)
            (h := sl.h) (rest := []) hrc
          have c6 := collect_erec (C := C) (d := d) (s := s) (ref := sl.ref) (h := sl.h) (rest := []) hrc
          refine settled _ c2 c3 (c5.trans hp) ?_
          obtain ⟨p, q, hpq⟩ := List.append_of_mem (launched_event hT hact hmem hl)
          have hj : LaunchedIn s.trace sl.h.node (p.count .resumed) := ⟨p, q, hpq, rfl⟩
          have h1 := h.busy hact sl.h hmem hl _ hj
          have h2 := hd sl.h.node (p.count .resumed) s.tick (by rw [c0]; exact hj.grow)
            ⟨s.trace ++ [.runLog sl.h.node log], s.erec, r, sl.ref, [], by rw [c0]; simp, c01, c02,
              by simp [St.tick]⟩
          have h3 : (collect C s sl.ref sl.h []).tick = s.tick := by
            unfold St.tick; rw [c0]; simp
          rw [c6, c1, h3]
          omega
      · intro _
        have hhd : handles { s with kept := s.kept ++ [sl.h], passed := s.passed ++ [sl.ref], todo := [] }
            = handles s := by
          simp [handles, ht]
        refine ⟨h.busy_mono hact (evs := []) (by simp) (by simp) (fun x hx _ => by rw [← hhd]; exact hx) rfl
          (fun _ _ _ => rfl), fun hf => ?_⟩
        have := hf sl.h (by rw [hhd]; exact hmem)
        rw [hl] at this
        cases this

theorem tick_ticks (s : St) : s.tick = ticks s.trace := by
  unfold St.tick ticks List.count
  congr 1

theorem one_ctl (hwf : C.dag.WF) (hc : C.threadCount = 1) {s : St} (hI : Inv C s) (hT : TInv C s)
    (hlb : TickLB C s) (h : TookSoFar d s.trace → OneTick C d s) (ok : Bool)
    (hd : TookSoFar d (ctlStep C s ok).trace) : OneTick C d (ctlStep C s ok) := by
  have h : OneTick C d s := by
    refine h ?_
    obtain ⟨evs, e1, -⟩ := ctl_events C s ok
    rw [e1] at hd
    exact hd.of_append
  by_cases ha : (ctlStep C s ok).phase.active = true
  swap
  · exact .inactive (by simpa using ha)
  cases hp : s.phase with
  | created =>
    have hs := hI.createdInit hp
    have he : ctlStep C s ok = prologue C St.init := by
      unfold ctlStep; rw [hp]; simp only; rw [hs]
    rw [he] at ha ⊢
    obtain ⟨t1, t2, _⟩ := prologue_todo (C := C)
    have h1 := prologue_length hwf
    have h2 := ticks_prologue hwf
    rcases prologue_spec hwf with ⟨_, c, _, hp, _⟩ | ⟨_, _, hp, _⟩ |
        ⟨_, pre, n, post, _, _, _, _, ⟨_, hp⟩ | ⟨_, w, _, hp⟩⟩
    · rw [hp] at ha; cases ha
    · have e : handles (prologue C St.init) = [] := by simp [handles, t1, t2]
      refine ⟨fun _ x hx => absurd hx (by rw [e]; simp), fun _ => ?_⟩
      have h3 : (prologue C St.init).tick = 1 := by rw [tick_ticks, h2]
      have h4 : (prologue C St.init).erec.took d = 0 := by
        unfold ExecRecord.took; rw [prologue_todo.2.2.2.2]; rfl
      unfold FreeTick
      rw [hp]
      dsimp only
      rw [h1, h3, h4]
      omega
    · rw [hp] at ha; cases ha
    · rw [hp] at ha; cases ha
  | loopTop =>
    have hact : s.phase.active = true := by rw [hp]; rfl
    unfold TickLB at hlb
    rw [hp] at hlb
    unfold ctlStep
    rw [hp]
    dsimp only
    split
    · rename_i htp
      refine ⟨h.busy_mono hact (evs := []) (by simp) (by simp) (fun x hx _ => hx) rfl
          (fun _ _ _ => rfl), fun hf => ?_⟩
      have hF := h.free hf
      unfold FreeTick at hF
      rw [hp] at hF
      refine ⟨fun _ => hF, fun h0 => .inl ?_⟩
      rw [← hlb.2 h0, htp]
      rfl
    · refine ⟨h.busy_mono hact (evs := [.onTick s.erec]) rfl (by simp) (fun x hx _ => hx) rfl
          (fun _ _ _ => rfl), fun hf => ?_⟩
      have hF := h.free hf
      unfold FreeTick at hF
      rw [hp] at hF
      simpa [FreeTick, St.tick, St.emit] using hF
  | clean b =>
    have he : ctlStep C s ok = cleanStep C s ok b := by unfold ctlStep; rw [hp]
    rw [he] at hd ⊢
    exact one_clean hc hI hT h hp ok hd
  | pick =>
    have hact : s.phase.active = true := by rw [hp]; rfl
    have he : ctlStep C s ok = pickStep C s := by unfold ctlStep; rw [hp]
    rw [he] at ha ⊢
    obtain ⟨p1, p2, p3, p4, p5⟩ := pick_shape hwf hI hp ha
    by_cases h0 : s.todo = []
    · have hk : s.kept = [] := (hI.notClean hact (by rw [hp]; rfl)).1
      have hF := h.free (by simp [handles, hk, h0])
      unfold FreeTick at hF
      rw [hp] at hF
      dsimp only at hF
      have hl : ∀ x ∈ handles (pickStep C s), x.launched ≠ true := by
        intro x hx hxl
        have := pick_handles hx hxl
        simp [handles, hk, h0] at this
      refine ⟨fun _ x hx hxl => absurd hxl (hl x hx), fun _ => ?_⟩
      unfold FreeTick
      rw [p1]
      dsimp only
      have h5 := p5 h0
      have h6 : (pickStep C s).tick = s.tick := by unfold St.tick; rw [p2]
      have h7 : (pickStep C s).erec = s.erec := by
        unfold pickStep
        split
        · rfl
        · split
          · rfl
          · rfl
          · rfl
      rw [h6, h7]
      omega
    · have hl : s.todo.length ≥ C.threadCount ∧ C.threadCount ≠ 0 := by
        rw [hc]
        exact ⟨List.length_pos_of_ne_nil h0, by simp⟩
      have hst : pickStep C s = { s with phase := .susp false } := by
        unfold pickStep; rw [if_pos hl]
      rw [hst]
      refine ⟨h.busy_mono hact (evs := []) (by simp) (by simp) (fun x hx _ => hx) rfl
          (fun _ _ _ => rfl), fun hf => ?_⟩
      obtain ⟨sl, hsl⟩ := List.exists_mem_of_ne_nil _ h0
      have := hf sl.h (by simp only [handles, List.mem_append, List.mem_map]; exact .inr ⟨sl, hsl, rfl⟩)
      rw [hI.pickLaunched hp sl hsl] at this
      cases this
  | susp b =>
    have hact : s.phase.active = true := by rw [hp]; rfl
    unfold ctlStep
    rw [hp]
    dsimp only
    refine ⟨h.busy_mono hact (evs := [.resumed]) rfl (by simp) (fun x hx _ => hx) rfl
          (fun _ _ _ => rfl), fun hf => ?_⟩
    have hF := h.free hf
    unfold FreeTick at hF
    rw [hp] at hF
    cases b
    · simp only [FreeTick, St.tick, St.emit, Bool.false_eq_true, if_false, List.count_append] at hF ⊢
      simp
      omega
    · simp only [FreeTick, St.tick, St.emit, if_true, List.count_append] at hF ⊢
      refine ⟨fun h1 => absurd hF.1 h1, fun _ => .inr ?_⟩
      simp
      omega
  | drainTop =>
    have hact : s.phase.active = true := by rw [hp]; rfl
    unfold ctlStep
    rw [hp]
    dsimp only
    split
    · rename_i h0
      refine ⟨h.busy_mono hact (evs := [.afterExecution s.erec]) rfl (by simp) (fun x hx _ => hx) rfl
          (fun _ _ _ => rfl), fun hf => ?_⟩
      have hF := h.free hf
      unfold FreeTick at hF
      rw [hp] at hF
      have hF := hF.2 h0
      simpa [FreeTick, St.tick, St.emit] using hF
    · rename_i h0
      refine ⟨h.busy_mono hact (evs := []) (by simp) (by simp) (fun x hx _ => hx) rfl
          (fun _ _ _ => rfl), fun hf => ?_⟩
      have hF := h.free hf
      unfold FreeTick at hF
      rw [hp] at hF
      exact hF.1 h0
  | unwinding e =>
    unfold ctlStep at ha; rw [hp] at ha; dsimp only at ha
    split at ha
    · cases ha
    · rw [hp] at ha; cases ha
  | destroying =>
    unfold ctlStep at ha; rw [hp] at ha; dsimp only at ha
    split at ha
    · cases ha
    · rw [hp] at ha; cases ha
  | finished => unfold ctlStep at ha; rw [hp] at ha; cases ha
  | threw e => unfold ctlStep at ha; rw [hp] at ha; cases ha
  | destroyed => unfold ctlStep at ha; rw [hp] at ha; dsimp only at ha; rw [hp] at ha; cases ha
  | ub => unfold ctlStep at ha; rw [hp] at ha; dsimp only at ha; rw [hp] at ha; cases ha
  | abort => unfold ctlStep at ha; rw [hp] at ha; dsimp only at ha; rw [hp] at ha; cases ha
  | outOfFuel => unfold ctlStep at ha; rw [hp] at ha; dsimp only at ha; rw [hp] at ha; cases ha

theorem one_step (hwf : C.dag.WF) (hc : C.threadCount = 1) {s : St} (hI : Inv C s) (hT : TInv C s)
    (hlb : TickLB C s) (h : TookSoFar d s.trace → OneTick C d s) (m : Move)
    (hd : TookSoFar d (step C s m).trace) : OneTick C d (step C s m) := by
  have worker : ∀ (e : Event) w, (∀ n, e ≠ .launch n) → e ≠ .resumed →
      TookSoFar d ({ s.emit e with worker := w } : St).trace → OneTick C d { s.emit e with worker := w } := by
    intro e w h1 h2 hd
    have h := h (TookSoFar.of_append hd)
    by_cases ha : s.phase.active = true
    swap
    · refine .inactive ?_
      show s.phase.active = false
      simpa using ha
    refine ⟨h.busy_mono ha (evs := [e]) rfl (fun n => by simpa using fun h => h1 n h.symm) (fun x hx _ => hx) rfl
      (fun _ _ _ => rfl), fun hf => ?_⟩
    have hF := h.free hf
    have ht : ({ s.emit e with worker := w } : St).tick = s.tick := by
      simp [St.tick, St.emit, h2]
    unfold FreeTick at hF ⊢
    rw [ht]
    exact hF
  cases m with
  | ctl => exact one_ctl hwf hc hI hT hlb h true hd
  | ctlFail => exact one_ctl hwf hc hI hT hlb h false hd
  | fault f =>
    change TookSoFar d (faultStep C s f).trace at hd
    show OneTick C d (faultStep C s f)
    rcases fault_cases C s f with h1 | ⟨_, _, _, _, _, _, _, h1⟩ | ⟨pre, e, post, _, h2, _, _, h1⟩ |
      ⟨_, _, h1⟩
    · rw [h1] at hd ⊢; exact one_ctl hwf hc hI hT hlb h true hd
    · rw [h1]; exact .inactive rfl
    · rw [h1]; exact .inactive rfl
    · rw [h1]; exact .inactive rfl
  | begin n =>
    simp only [step] at hd ⊢
    split at hd
    · rename_i h1; rw [if_pos h1]; exact h hd
    · rename_i h1
      rw [if_neg h1]
      split at hd
      · rename_i h2; rw [if_pos h2]; exact worker _ _ (by simp) (by simp) hd
      · rename_i h2; rw [if_neg h2]; exact h hd
  | finish n =>
    simp only [step] at hd ⊢
    split at hd
    · rename_i h1; rw [if_pos h1]; exact h hd
    · rename_i h1
      rw [if_neg h1]
      split at hd
      · rename_i h2; rw [if_pos h2]; exact worker _ _ (by simp) (by simp) hd
      · rename_i h2; rw [if_neg h2]; exact h hd
  | destroy =>
    revert hd
    simp only [step, destroyStep]
    split <;> first | exact h | (intro _; exact .inactive rfl)

theorem one_exec (hwf : C.dag.WF) (hc : C.threadCount = 1) (ms : List Move) :
    TookSoFar d (exec C ms).trace → OneTick C d (exec C ms) := by
  induction ms using List.reverseRecOn with
  | nil => exact fun _ => .inactive rfl
  | append_singleton ms m ih =>
    obtain ⟨hI, hT⟩ := both_exec (C := C) hwf ms
    rw [exec_snoc]
    exact one_step hwf hc hI hT (ticks_exec hwf ms).1 ih m

end Joque
