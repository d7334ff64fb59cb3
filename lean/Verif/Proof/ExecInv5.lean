import Verif.Proof.ExecInv4
import Verif.Proof.Emits

namespace Joque

theorem toProcessOf_spec (g : Dag) : (toProcessOf g).Pairwise (· < ·) ∧
    ∀ x, x ∈ toProcessOf g ↔ x ∈ g.nodes := by
  have := foldl_sinsert_spec g.nodes [] List.Pairwise.nil
  exact ⟨this.1, fun x => by rw [toProcessOf, this.2 x]; simp⟩

theorem toProcessOf_perm {g : Dag} (h : g.WF) : (toProcessOf g).Perm g.nodes := by
  have := toProcessOf_spec g
  rw [List.perm_ext_iff_of_nodup (sorted_nodup this.1) h.nodup]
  exact this.2

/-- States right after the prologue. -/
theorem inv_afterPrologue {C : Cfg} (hwf : C.dag.WF) {p : Phase} {iv : Node → Inval}
    {tr : List Event} (h1 : p ≠ .created) (h2 : p ≠ .abort) (h3 : p ≠ .outOfFuel)
    (h4 : p.active = true → p = .loopTop) (h5 : p ≠ .pick) 
    (hiv : (∀ n, iv n = .unknown) ∨
      (∀ n ∈ C.dag.nodes, (Stale C.dag C.ask n → iv n = .invalid) ∧
        (¬ Stale C.dag C.ask n → iv n = .valid)))
    (hiv2 : p.active = true → 
      (∀ n ∈ C.dag.nodes, (Stale C.dag C.ask n → iv n = .invalid) ∧
        (¬ Stale C.dag C.ask n → iv n = .valid)))
    (hac : p.active = true → ¬ Cyclic C.dag)
    (hans : p.active = true → ∀ n ∈ C.dag.nodes, Answers C.hasJob C.ask n) :
    Inv C { St.init with
      phase := p
      toProcess := toProcessOf C.dag
      flags := { St.init.flags with inval := iv }
      erec := { ExecRecord.init with totalCount := (toProcessOf C.dag).length }
      trace := tr } := by
  have htp := toProcessOf_spec C.dag
  have hnp : p ≠ .clean false := by rintro rfl; cases h4 rfl
  have hnf : p ≠ .finished := by rintro rfl; cases h4 rfl
  have hnd : p.draining ≠ true := by
    intro h
    have : p.active = true := by
      unfold Phase.draining at h; split at h <;> simp_all [Phase.active]
    rw [h4 this] at h; cases h
  constructor
  · exact fun h => absurd h h1
  · exact h2
  · exact h3
  · exact htp.1
  · simp only [allNodes, handles, recNodes, St.init, ExecRecord.init]
    simpa using sorted_nodup htp.1
  · intro n hn
    simp only [allNodes, handles, recNodes, St.init, ExecRecord.init] at hn
    exact (htp.2 n).1 (by simpa using hn)
  · intro _ n hn
    simp only [allNodes, handles, recNodes, St.init, ExecRecord.init]
    simpa using (htp.2 n).2 hn
  · simp [St.init, recNodes, ExecRecord.init]
  · simp [St.init, ExecRecord.init]
  · simp [St.init]
  · simp [St.init, handles]
  · simp [St.init, handles]
  · simp [St.init, handles]
  · simp [St.init]
  · simp [St.init]
  · simp [St.init]
  · simp [St.init, handles]
  · simp [St.init]
  · simp [St.init]
  · exact fun h => absurd h h5
  · simp [St.init, handles]
  · simp [St.init, handles]
  · simp [St.init]
  · simp [St.init]
  · simp [ExecRecord.init]
  · intro st; cases st <;> simp [ExecRecord.init, Stats.get]
  · exact fun _ => (toProcessOf_perm hwf).length_eq
  · exact hiv
  · exact hiv2
  · exact hac
  · exact hans
  · exact fun h => absurd h hnd
  · exact fun h => absurd h hnf
  · rintro (h | h)
    · exact absurd h hnp
    · exact absurd h h5

theorem inv_prologue {C : Cfg} (hwf : C.dag.WF) : Inv C (prologue C St.init) := by
  have htp := toProcessOf_spec C.dag
  unfold prologue
  simp only
  rcases hasCycle_spec hwf htp.2 with ⟨c, hc, _⟩ | ⟨hc, hnc⟩
  · rw [hc]
    exact inv_afterPrologue hwf (p := .unwinding .cycle) (iv := fun _ => .unknown) (tr := _)
      (by simp) (by simp) (by simp) (by simp [Phase.active]) (by simp) (.inl fun _ => rfl)
      (by simp [Phase.active]) (by simp [Phase.active]) (by simp [Phase.active])
  · rw [hc]
    simp only
    by_cases hall : ∀ n ∈ C.dag.nodes, Answers C.hasJob C.ask n
    · obtain ⟨ps, evs, hps, h1, h2, _⟩ := propagate_ok hwf (tp := toProcessOf C.dag)
        (inval0 := St.init.flags.inval) htp.2 hall
      rw [hps]
      exact inv_afterPrologue hwf (p := .loopTop) (iv := ps.inval) (tr := _)
        (by simp) (by simp) (by simp) (by simp) (by simp)
        (.inr fun n hn => ⟨h1 n hn, h2 n hn⟩) (fun _ n hn => ⟨h1 n hn, h2 n hn⟩)
        (fun _ => hnc) (fun _ => hall)
    · have hex : ∃ n ∈ toProcessOf C.dag, ¬ Answers C.hasJob C.ask n := by
        by_contra hcon
        apply hall
        intro n hn
        by_contra h
        exact hcon ⟨n, (htp.2 n).2 hn, h⟩
      obtain ⟨pre, n, post, _, _, _, hout⟩ := propagate_fail (g := C.dag)
        (inval0 := St.init.flags.inval) hex
      rw [hout]
      have hub : ∀ tr, Inv C { St.init with
          phase := .ub
          toProcess := toProcessOf C.dag
          flags := { St.init.flags with inval := fun _ => .unknown }
          erec := { ExecRecord.init with totalCount := (toProcessOf C.dag).length }
          trace := tr } := fun tr => inv_afterPrologue hwf
        (by simp) (by simp) (by simp) (by simp [Phase.active]) (by simp) (.inl fun _ => rfl)
        (by simp [Phase.active]) (by simp [Phase.active]) (by simp [Phase.active])
      by_cases hj : C.hasJob n = true
      · cases hask : C.ask n with
        | answer r => simp only [hj, if_true]; exact hub _
        | throws w =>
          simp only [hj, if_true]
          exact inv_afterPrologue hwf (p := .unwinding (.inval w)) (iv := fun _ => .unknown)
            (tr := _)
            (by simp) (by simp) (by simp) (by simp [Phase.active]) (by simp) (.inl fun _ => rfl)
            (by simp [Phase.active]) (by simp [Phase.active]) (by simp [Phase.active])
      · simp only [hj]; exact hub _

theorem inv_cleanStep {C : Cfg} {s : St} (hI : Inv C s) {d : Bool} (hp : s.phase = .clean d)
    (ok : Bool) : Inv C (cleanStep C s ok d) := by
  unfold cleanStep
  split
  · rename_i ht; exact inv_cleanEnd hI hp ht
  · rename_i sl rest ht
    split
    · rename_i hl
      exact inv_startRun hI hp ht (by simpa using hl) ok
    · rename_i hl
      have hl' : sl.h.launched = true := by simpa using hl
      split
      · rename_i hw; exact inv_collect hI hp ht hl' hw
      · exact inv_keep hI hp ht hl'

theorem inv_ctl {C : Cfg} (hwf : C.dag.WF) {s : St} (hI : Inv C s) (ok : Bool) :
    Inv C (ctlStep C s ok) := by
  unfold ctlStep
  split
  · rename_i hp
    rw [hI.createdInit hp]; exact inv_prologue hwf
  · rename_i hp
    split
    · rename_i ht
      exact hI.phase rfl rfl rfl rfl rfl rfl rfl rfl (Nat.le_refl _) (by simp) (by simp) (by simp)
        (by simp [hp, Phase.active]) (by simp) (by simp [hp, Phase.isClean]) (by simp [ht])
        (by simp) (by simp [hp]) (by simp)
    · rename_i ht
      exact hI.phase rfl rfl rfl rfl rfl rfl rfl rfl (by simp [St.emit]) (by simp) (by simp)
        (by simp) (by simp [hp, Phase.active]) (by simp) (by simp [hp, Phase.isClean])
        (by simp [Phase.draining]) (by simp) (by simp [hp]) (by simpa using ht)
  · rename_i d hp
    exact inv_cleanStep hI hp ok
  · rename_i hp; exact inv_pick hwf hI hp
  · rename_i d hp
    have hd := hI.drain
    rw [hp] at hd
    cases d
    · exact hI.phase rfl rfl rfl rfl rfl rfl rfl rfl (by simp [St.emit]) (by simp) (by simp)
        (by simp) (by simp [hp, Phase.active]) (by simp) (by simp [hp, Phase.isClean])
        (by simp [Phase.draining]) (by simp) (by simp [hp]) (by simp)
    · exact hI.phase rfl rfl rfl rfl rfl rfl rfl rfl (by simp [St.emit]) (by simp) (by simp)
        (by simp) (by simp [hp, Phase.active]) (by simp) (by simp [hp, Phase.isClean])
        (fun _ => hd rfl) (by simp) (by simp [hp]) (by simp)
  · rename_i hp
    have hd := hI.drain
    rw [hp] at hd
    split
    · rename_i ht
      exact hI.phase rfl rfl rfl rfl rfl rfl rfl rfl (by simp [St.emit]) (by simp) (by simp)
        (by simp) (by simp [hp, Phase.active]) (by simp) (by simp [hp, Phase.isClean])
        (fun _ => hd rfl) (fun _ => ht) (by simp [hp]) (by simp)
    · exact hI.phase rfl rfl rfl rfl rfl rfl rfl rfl (Nat.le_refl _) (by simp) (by simp)
        (by simp) (by simp [hp, Phase.active]) (by simp) (by simp [hp, Phase.isClean])
        (fun _ => hd rfl) (by simp) (by simp [hp]) (by simp)
  · rename_i hp
    split
    · exact hI.phase rfl rfl rfl rfl rfl rfl rfl rfl (Nat.le_refl _) (by simp) (by simp)
        (by simp) (by simp [Phase.active]) (by simp) (by simp [Phase.active])
        (by simp [Phase.draining]) (by simp) (by simp [hp]) (by simp)
    · exact hI
  · rename_i hp
    split
    · exact hI.phase rfl rfl rfl rfl rfl rfl rfl rfl (Nat.le_refl _) (by simp) (by simp)
        (by simp) (by simp [Phase.active]) (by simp) (by simp [Phase.active])
        (by simp [Phase.draining]) (by simp) (by simp [hp]) (by simp)
    · exact hI
  · exact inv_ub hI
  · exact inv_ub hI
  all_goals exact hI

theorem prologue_handles (C : Cfg) : handles (prologue C St.init) = [] := by
  unfold prologue
  simp only [handles]
  split
  · simp [St.init]
  · simp [St.init]
  · simp [St.init]
  · split <;> simp [St.init]

theorem inv_throw {C : Cfg} (hwf : C.dag.WF) {s : St} (hI : Inv C s) (f : Fault) :
    Inv C (faultStep C s f) := by
  rcases fault_cases C s f with h | ⟨pre, er, r, ref, post, h1, _, h3⟩ |
      ⟨pre, e, post, h1, h2, _, _, h3⟩ | ⟨_, hph, h3⟩
  · rw [h]; exact inv_ctl hwf hI true
  · rw [h3]
    have hub : (ctlStep C s true).phase ≠ .ub ∨ handles (ctlStep C s true) = [] := by
      rcases h1.after_last with hp | ⟨_, d, _, hp⟩
      · right
        unfold ctlStep
        rw [hp]
        simp only
        rw [hI.createdInit hp]
        exact prologue_handles C
      · left; rw [hp]; simp
    exact (inv_ctl hwf hI true).phase rfl rfl rfl rfl rfl rfl rfl rfl (Nat.le_refl _) (by simp)
      (by simp) (by simp) (by simp [Phase.active]) (by simp) (by simp [Phase.active])
      (by simp [Phase.draining]) (by simp) (fun _ => hub) (by simp)
  · rw [h3]
    have hub : s.phase ≠ .ub := by
      rcases h1.phase_of_mem (e := e) (by simp) with h | h | ⟨d, h⟩ | h | ⟨d, h⟩ <;> simp [h]
    exact hI.phase rfl rfl rfl rfl rfl rfl rfl rfl (by simp) (by simp)
      (by simp) (by simp) (by simp [Phase.active]) (by simp) (by simp [Phase.active])
      (by simp [Phase.draining]) (by simp) (fun _ => .inl hub) (by simp)
  · rw [h3]
    have hub : s.phase ≠ .ub := by
      rcases hph with h | ⟨d, h⟩ | h | h <;> simp [h]
    exact hI.phase rfl rfl rfl rfl rfl rfl rfl rfl (by simp) (by simp)
      (by simp) (by simp) (by simp [Phase.active]) (by simp) (by simp [Phase.active])
      (by simp [Phase.draining]) (by simp) (fun _ => .inl hub) (by simp)

theorem inv_step {C : Cfg} (hwf : C.dag.WF) {s : St} (hI : Inv C s) (m : Move) :
    Inv C (step C s m) := by
  cases m with
  | ctl => exact inv_ctl hwf hI true
  | ctlFail => exact inv_ctl hwf hI false
  | fault f => exact inv_throw hwf hI f
  | begin n =>
    simp only [step]
    split
    · exact hI
    · split
      · rename_i h; exact inv_worker hI (by simp [h]) (by simp [h]) (by simp)
      · exact hI
  | finish n =>
    simp only [step]
    split
    · exact hI
    · split
      · rename_i h; exact inv_worker hI (by simp [h]) (by simp [h]) (by simp)
      · exact hI
  | destroy =>
    simp only [step, destroyStep]
    have : s.phase ≠ .ub → Inv C { s with phase := .destroying } := fun hu =>
      hI.phase rfl rfl rfl rfl rfl rfl rfl rfl (Nat.le_refl _) (by simp) (by simp)
        (by simp) (by simp [Phase.active]) (by simp) (by simp [Phase.active])
        (by simp [Phase.draining]) (by simp) (fun _ => .inl hu) (by simp)
    split
    · rename_i hp; exact this (by simp [hp])
    · rename_i hp; exact this (by simp [hp])
    · rename_i hp; exact this (by simp [hp])
    · rename_i hp; exact this (by simp [hp])
    · exact hI

theorem foldl_inv {α β : Type} {f : α → β → α} {P : α → Prop} (hstep : ∀ a b, P a → P (f a b)) :
    ∀ (l : List β) (a : α), P a → P (l.foldl f a) := by
  intro l
  induction l with
  | nil => intro a h; exact h
  | cons b l ih => intro a h; exact ih _ (hstep a b h)

theorem inv_exec {C : Cfg} (hwf : C.dag.WF) (ms : List Move) : Inv C (exec C ms) :=
  foldl_inv (P := Inv C) (fun _ m h => inv_step hwf h m) ms St.init (inv_init C)

end Joque
