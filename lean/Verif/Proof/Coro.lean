import Verif.Model.Coro

namespace Joque

theorem upd_same {α : Type} (f : Nat → α) (k : Nat) (v : α) : upd f k v k = v := by simp [upd]

theorem upd_other {α : Type} (f : Nat → α) {k x : Nat} (v : α) (h : x ≠ k) : upd f k v x = f x := by
  simp [upd, h]

/-- ownership invariant -/
structure WInv (w : World) : Prop where
  dead : ∀ v, w.live v = false → w.h v = none
  owned : ∀ v f, w.h v = some f → (w.frame f).isSome
  inj : ∀ v v' f, w.h v = some f → w.h v' = some f → v = v'
  noLeak : ∀ f, (w.frame f).isSome → ∃ v, w.h v = some f
  fresh : ∀ f, (w.frame f).isSome ∨ f ∈ w.destroyed → f < w.fresh
  once : w.destroyed.Nodup
  gone : ∀ f ∈ w.destroyed, w.frame f = none
  all : ∀ f < w.fresh, (w.frame f).isSome ∨ f ∈ w.destroyed

theorem WInv.init : WInv World.init := by
  constructor <;> simp [World.init]

theorem tick_inv {w w' : World} (hI : WInv w) {v n} (h : w.tick v n = some w') :
    WInv w' ∧ w'.live = w.live ∧ w'.h = w.h ∧ w'.destroyed = w.destroyed ∧
    (∀ f r, w.frame f = some r → r.done = true → w'.frame f = some r) ∧
    (∀ f, (w'.frame f).isSome = (w.frame f).isSome) := by
  unfold World.tick at h
  split at h
  · split at h
    · cases h; exact ⟨hI, rfl, rfl, rfl, fun _ _ h _ => h, fun _ => rfl⟩
    · rename_i f hf
      split at h
      · rename_i hfr
        cases h
        have hs : ∀ g, (upd w.frame f (some n) g).isSome = (w.frame g).isSome := by
          intro g; by_cases hg : g = f
          · subst hg; rw [upd_same, hfr]; rfl
          · rw [upd_other _ _ hg]
        refine ⟨⟨hI.dead, ?_, hI.inj, ?_, ?_, hI.once, ?_, ?_⟩, rfl, rfl, rfl, ?_, hs⟩
        · intro v' g hg; simp only [hs]; exact hI.owned v' g hg
        · intro g hg; simp only [hs] at hg; exact hI.noLeak g hg
        · intro g hg; simp only [hs] at hg; exact hI.fresh g hg
        · intro g hg
          have := hI.gone g hg
          have h2 : g ≠ f := by rintro rfl; rw [this] at hfr; cases hfr
          simp only [upd_other _ _ h2, this]
        · intro g hg; simp only [hs]; exact hI.all g hg
        · intro g r hg hr
          have h2 : g ≠ f := by rintro rfl; rw [hg] at hfr; cases hfr; cases hr
          simp only [upd_other _ _ h2, hg]
      · cases h
  · cases h

theorem run_inv {v : Nat} : ∀ {ns : List Next} {w w' : World}, WInv w →
    (w.run v ns = .blocked w' ∨ ∃ r, w.run v ns = .returns w' r) →
    WInv w' ∧ w'.live = w.live ∧ w'.h = w.h ∧ w'.destroyed = w.destroyed ∧
    (∀ f r, w.frame f = some r → r.done = true → w'.frame f = some r) ∧
    (∀ f, (w'.frame f).isSome = (w.frame f).isSome) := by
  intro ns
  induction ns with
  | nil =>
    intro w w' hI h
    unfold World.run at h
    split at h
    · simp at h; subst h; exact ⟨hI, rfl, rfl, rfl, fun _ _ h _ => h, fun _ => rfl⟩
    · simp at h; subst h; exact ⟨hI, rfl, rfl, rfl, fun _ _ h _ => h, fun _ => rfl⟩
    · simp at h
  | cons n ns ih =>
    intro w w' hI h
    unfold World.run at h
    split at h
    · simp at h; subst h; exact ⟨hI, rfl, rfl, rfl, fun _ _ h _ => h, fun _ => rfl⟩
    · split at h
      · simp at h
      · rename_i w1 ht
        obtain ⟨a1, a2, a3, a4, a5, a6⟩ := tick_inv hI ht
        obtain ⟨b1, b2, b3, b4, b5, b6⟩ := ih a1 h
        exact ⟨b1, b2.trans a2, b3.trans a3, b4.trans a4,
          fun f r h1 h2 => b5 f r (a5 f r h1 h2) h2, fun f => (b6 f).trans (a6 f)⟩
    · simp at h

theorem swap_inv {w : World} (hI : WInv w) {v o : Nat} (hv : w.live v = true)
    (ho : w.live o = true) : WInv { w with h := upd (upd w.h v (w.h o)) o (w.h v) } := by
  have hh : ∀ x, upd (upd w.h v (w.h o)) o (w.h v) x =
      w.h (if x = o then v else if x = v then o else x) := by
    intro x; unfold upd; split
    · rfl
    · split <;> rfl
  refine ⟨?_, ?_, ?_, ?_, hI.fresh, hI.once, hI.gone, hI.all⟩
  · intro x hx
    have h1 : x ≠ o := by rintro rfl; rw [ho] at hx; cases hx
    have h2 : x ≠ v := by rintro rfl; rw [hv] at hx; cases hx
    simp only [hh, h1, h2, if_false]; exact hI.dead x hx
  · intro x f hx; simp only [hh] at hx; exact hI.owned _ _ hx
  · intro x y f hx hy
    simp only [hh] at hx hy
    have := hI.inj _ _ _ hx hy
    by_cases a : x = o <;> by_cases b : x = v <;> by_cases c : y = o <;> by_cases d : y = v <;>
      simp_all
  · intro f hf
    obtain ⟨x, hx⟩ := hI.noLeak f hf
    refine ⟨if x = o then v else if x = v then o else x, ?_⟩
    simp only [hh]
    rw [← hx]
    congr 1
    by_cases a : x = o <;> by_cases b : x = v <;> simp_all

theorem step_inv {w w' : World} (hI : WInv w) (op : Op) (h : w.step op = some w') :
    WInv w' ∧
    (∀ f r, w.frame f = some r → r.done = true → w'.frame f = some r ∨ f ∈ w'.destroyed) ∧
    (∀ f ∈ w.destroyed, f ∈ w'.destroyed) := by
  have hid : ∀ {w'}, some w = some w' → WInv w' ∧
    (∀ f r, w.frame f = some r → r.done = true → w'.frame f = some r ∨ f ∈ w'.destroyed) ∧
    (∀ f ∈ w.destroyed, f ∈ w'.destroyed) := by
    intro w' h; cases h; exact ⟨hI, fun _ _ h _ => .inl h, fun _ h => h⟩
  cases op with
  | create v =>
    simp only [World.step, World.create] at h
    split at h
    · rename_i hv
      cases h
      have hvn := hI.dead v hv
      have hff : w.frame w.fresh = none := by
        cases hf : w.frame w.fresh with
        | none => rfl
        | some x => have := hI.fresh w.fresh (.inl (by rw [hf]; rfl)); omega
      have hne : ∀ g, (w.frame g).isSome → g ≠ w.fresh := by
        rintro g hg rfl; rw [hff] at hg; cases hg
      refine ⟨⟨?_, ?_, ?_, ?_, ?_, hI.once, ?_, ?_⟩, ?_, fun _ h => h⟩
      · intro x hx
        have h2 : x ≠ v := by rintro rfl; simp [upd] at hx
        simp only [upd_other _ _ h2] at hx ⊢; exact hI.dead x hx
      · intro x f hx
        by_cases h2 : x = v
        · subst h2; simp only [upd_same] at hx; cases hx; simp [upd_same]
        · simp only [upd_other _ _ h2] at hx
          have := hI.owned x f hx
          simp only [upd_other _ _ (hne f this)]; exact this
      · intro x y f hx hy
        by_cases a : x = v <;> by_cases b : y = v
        · rw [a, b]
        · subst a; simp only [upd_same, upd_other _ _ b] at hx hy; cases hx
          exact absurd rfl (hne _ (hI.owned _ _ hy))
        · subst b; simp only [upd_same, upd_other _ _ a] at hx hy; cases hy
          exact absurd rfl (hne _ (hI.owned _ _ hx))
        · simp only [upd_other _ _ a, upd_other _ _ b] at hx hy; exact hI.inj x y f hx hy
      · intro f hf
        by_cases h2 : f = w.fresh
        · exact ⟨v, by simp only [upd_same]; rw [h2]⟩
        · simp only [upd_other _ _ h2] at hf
          obtain ⟨x, hx⟩ := hI.noLeak f hf
          refine ⟨x, ?_⟩
          have : x ≠ v := by rintro rfl; rw [hvn] at hx; cases hx
          simp only [upd_other _ _ this, hx]
      · intro f hf
        by_cases h2 : f = w.fresh
        · rw [h2]; exact Nat.lt_succ_self _
        · simp only [upd_other _ _ h2] at hf
          exact Nat.lt_succ_of_lt (hI.fresh f hf)
      · intro f hf
        have := hI.fresh f (.inr hf)
        simp only [upd_other _ _ (Nat.ne_of_lt this)]; exact hI.gone f hf
      · intro f hf
        by_cases h2 : f = w.fresh
        · left; rw [h2]; simp [upd_same]
        · simp only [upd_other _ _ h2]; exact hI.all f (by simp only at hf; omega)
      · intro f r hf _
        left
        simp only [upd_other _ _ (hne f (by rw [hf]; rfl))]; exact hf
    · cases h
  | tick v n =>
    obtain ⟨a1, a2, a3, a4, a5, a6⟩ := tick_inv hI h
    exact ⟨a1, fun f r h1 h2 => .inl (a5 f r h1 h2), fun f hf => by rw [a4]; exact hf⟩
  | moveNew v o =>
    simp only [World.step, World.moveNew] at h
    split at h
    · rename_i hc
      cases h
      have hvn := hI.dead v hc.1
      have hI1 : WInv { w with live := upd w.live v true } := by
        refine ⟨?_, hI.owned, hI.inj, hI.noLeak, hI.fresh, hI.once, hI.gone, hI.all⟩
        intro x hx
        by_cases h2 : x = v
        · subst h2; simp [upd] at hx
        · simp only [upd_other _ _ h2] at hx; exact hI.dead x hx
      have hne : o ≠ v := by rintro rfl; rw [hc.1] at hc; cases hc.2
      have := swap_inv hI1 (v := v) (o := o) (by simp [upd]) (by simp [upd, hne, hc.2])
      simp only [hvn] at this
      exact ⟨this, fun _ _ h _ => .inl h, fun _ h => h⟩
    · cases h
  | moveAssign v o =>
    simp only [World.step, World.moveAssign] at h
    split at h
    · rename_i hc
      cases h
      exact ⟨swap_inv hI hc.1 hc.2, fun _ _ h _ => .inl h, fun _ h => h⟩
    · cases h
  | run v ns =>
    simp only [World.step] at h
    split at h
    · cases h
    · rename_i w1 hr
      cases h
      obtain ⟨a1, a2, a3, a4, a5, a6⟩ := run_inv hI (.inl hr)
      exact ⟨a1, fun f r h1 h2 => .inl (a5 f r h1 h2), fun f hf => by rw [a4]; exact hf⟩
    · rename_i w1 r hr
      cases h
      obtain ⟨a1, a2, a3, a4, a5, a6⟩ := run_inv hI (.inr ⟨_, hr⟩)
      exact ⟨a1, fun f r h1 h2 => .inl (a5 f r h1 h2), fun f hf => by rw [a4]; exact hf⟩
  | done v =>
    simp only [World.step] at h
    cases hd : w.done v with
    | none => rw [hd] at h; cases h
    | some b => rw [hd] at h; exact hid h
  | result v =>
    simp only [World.step] at h
    cases hd : w.result v with
    | none => rw [hd] at h; cases h
    | some b => rw [hd] at h; exact hid h
  | destroy v =>
    simp only [World.step, World.destroy] at h
    split at h
    · rename_i hv
      split at h
      · rename_i hn
        cases h
        refine ⟨⟨?_, hI.owned, hI.inj, hI.noLeak, hI.fresh, hI.once, hI.gone, hI.all⟩,
          fun _ _ h _ => .inl h, fun _ h => h⟩
        intro x hx
        by_cases h2 : x = v
        · subst h2; exact hn
        · simp only [upd_other _ _ h2] at hx; exact hI.dead x hx
      · rename_i f hf
        split at h
        · cases h
        · rename_i y hy
          cases h
          have hnd : f ∉ w.destroyed := fun hm => by rw [hI.gone f hm] at hy; cases hy
          refine ⟨⟨?_, ?_, ?_, ?_, ?_, ?_, ?_, ?_⟩, ?_, fun _ h => by simp [h]⟩
          · intro x hx
            by_cases h2 : x = v
            · subst h2; simp [upd]
            · simp only [upd_other _ _ h2] at hx ⊢; exact hI.dead x hx
          · intro x g hx
            by_cases h2 : x = v
            · subst h2; simp [upd] at hx
            · simp only [upd_other _ _ h2] at hx
              have h3 : g ≠ f := by rintro rfl; exact h2 (hI.inj _ _ _ hx hf)
              simp only [upd_other _ _ h3]; exact hI.owned x g hx
          · intro x z g hx hz
            by_cases h2 : x = v
            · subst h2; simp [upd] at hx
            · by_cases h4 : z = v
              · subst h4; simp [upd] at hz
              · simp only [upd_other _ _ h2, upd_other _ _ h4] at hx hz
                exact hI.inj x z g hx hz
          · intro g hg
            have h3 : g ≠ f := by rintro rfl; simp [upd] at hg
            simp only [upd_other _ _ h3] at hg
            obtain ⟨x, hx⟩ := hI.noLeak g hg
            refine ⟨x, ?_⟩
            have : x ≠ v := by rintro rfl; rw [hf] at hx; cases hx; exact h3 rfl
            simp only [upd_other _ _ this]; exact hx
          · intro g hg
            by_cases h3 : g = f
            · subst h3; exact hI.fresh g (.inl (by rw [hy]; rfl))
            · simp only [upd_other _ _ h3, List.mem_append, List.mem_singleton, h3, or_false] at hg
              exact hI.fresh g hg
          · rw [List.nodup_append]
            exact ⟨hI.once, by simp, by
              intro a ha b hb; simp at hb; rintro rfl; rw [hb] at ha; exact hnd ha⟩
          · intro g hg
            by_cases h3 : g = f
            · subst h3; simp [upd]
            · simp only [List.mem_append, List.mem_singleton, h3, or_false] at hg
              simp only [upd_other _ _ h3]; exact hI.gone g hg
          · intro g hg
            by_cases h3 : g = f
            · right; simp [h3]
            · simp only [upd_other _ _ h3, List.mem_append]
              rcases hI.all g hg with h | h
              · exact .inl h
              · exact .inr (.inl h)
          · intro g r hg _
            by_cases h3 : g = f
            · right; simp [h3]
            · left; simp only [upd_other _ _ h3]; exact hg
    · cases h

theorem runOps_inv : ∀ {ops : List Op} {w w' : World}, WInv w → w.runOps ops = some w' →
    WInv w' ∧
    (∀ f r, w.frame f = some r → r.done = true → w'.frame f = some r ∨ f ∈ w'.destroyed) ∧
    (∀ f ∈ w.destroyed, f ∈ w'.destroyed) := by
  intro ops
  induction ops with
  | nil => intro w w' hI h; cases h; exact ⟨hI, fun _ _ h _ => .inl h, fun _ h => h⟩
  | cons op ops ih =>
    intro w w' hI h
    simp only [World.runOps] at h
    cases hs : w.step op with
    | none => rw [hs] at h; cases h
    | some w1 =>
      rw [hs] at h
      obtain ⟨a1, a2, a3⟩ := step_inv hI op hs
      obtain ⟨b1, b2, b3⟩ := ih a1 h
      refine ⟨b1, fun f r h1 h2 => ?_, fun f hf => b3 f (a3 f hf)⟩
      rcases a2 f r h1 h2 with h | h
      · exact b2 f r h h2
      · exact .inr (b3 f h)

end Joque
