import Verif.Proof.Progress
import Mathlib.Tactic.ByContra

/-! # Fair runs come to an end -/

namespace Joque

/-- An infinite run `S` (the configuration of the `i`-th move is `D i`) in which every tick, thread and job
goes on comes to its end. -/
theorem fair_run {D : Nat → Cfg} {S : Nat → St} {σ : Nat → Move} (hG : ∀ i, Healthy (D i))
    (hS : ∀ i, S (i + 1) = step (D i) (S i) (σ i))
    (hI : ∀ i, (S i).phase.active = true → Inv (D i) (S i))
    (ticks : ∀ i, ∃ j, i ≤ j ∧ σ j = .ctl)
    (begins : ∀ i n, (S i).worker n = .queued → ∃ j, i ≤ j ∧ σ j = .begin n)
    (ends : ∀ i n, (S i).worker n = .running → ∃ j, i ≤ j ∧ σ j = .finish n)
    (noFault : ∀ i, σ i ≠ .ctlFail ∧ σ i ≠ .destroy ∧ ∀ f, σ i ≠ .fault f) :
    ∀ p i, (S i).phase.active = true → remaining (S i) ≤ p →
      ∃ j, i ≤ j ∧ (S j).phase = .finished := by
  intro p
  induction p using Nat.strongRecOn with
  | ind p ih =>
  intro i hact hp
  by_contra hcon
  have hnf : ∀ j, i ≤ j → (S j).phase ≠ .finished := fun j hj h => hcon ⟨j, hj, h⟩
  have hsmall : ∀ j, i ≤ j → (S j).phase.active = true →
      ¬ remaining (S j) < remaining (S i) := by
    intro j hj ha hlt
    obtain ⟨k, hk, hf⟩ := ih (remaining (S j)) (by omega) j ha (Nat.le_refl _)
    exact hnf k (Nat.le_trans hj hk) hf
  -- nothing useful happens after i
  have hsame : ∀ k, (S (i + k)).phase.active = true ∧
      remaining (S (i + k)) = remaining (S i) ∧
      (S (i + k)).worker = (S i).worker := by
    intro k
    induction k with
    | zero => exact ⟨hact, rfl, rfl⟩
    | succ k ihk =>
      obtain ⟨h1, h2, h3⟩ := ihk
      have hstep : S (i + (k + 1)) = step (D (i + k)) (S (i + k)) (σ (i + k)) := hS (i + k)
      have hsm := hsmall (i + (k + 1)) (by omega)
      rw [hstep] at hsm ⊢
      have hw := worker_progress (hI (i + k) h1) h1
      cases hm : σ (i + k) with
      | ctl =>
        rw [hm] at hsm
        obtain ⟨p1, p2⟩ := ctl_progress (hG (i + k)) (hI (i + k) h1) h1 (hnf _ (by omega))
        rcases p2 with p2 | ⟨p2, p3, _⟩
        · exact absurd (by rw [← h2]; exact p2) (hsm p1)
        · exact ⟨p1, p2.trans h2, p3.trans h3⟩
      | ctlFail => exact absurd hm (noFault _).1
      | destroy => exact absurd hm (noFault _).2.1
      | fault f => exact absurd hm ((noFault _).2.2 f)
      | begin n =>
        rw [hm] at hsm
        by_cases hq : (S (i + k)).worker n = .queued
        · obtain ⟨p1, p2⟩ := (hw n).1 hq
          exact absurd (by rw [← h2]; exact p2) (hsm (by rw [p1]; exact h1))
        · rw [(hw n).2.1 hq]; exact ⟨h1, h2, h3⟩
      | finish n =>
        rw [hm] at hsm
        by_cases hq : (S (i + k)).worker n = .running
        · obtain ⟨p1, p2⟩ := (hw n).2.2.1 hq
          exact absurd (by rw [← h2]; exact p2) (hsm (by rw [p1]; exact h1))
        · rw [(hw n).2.2.2 hq]; exact ⟨h1, h2, h3⟩
  -- so all threads are settled
  have hset : Settled (S i) := by
    intro n
    cases hw : (S i).worker n with
    | idle => exact .inl rfl
    | finished => exact .inr rfl
    | queued =>
      exfalso
      obtain ⟨j, hj, hm⟩ := begins i n hw
      obtain ⟨k, rfl⟩ := Nat.exists_eq_add_of_le hj
      obtain ⟨h1, h2, h3⟩ := hsame k
      obtain ⟨p1, p2⟩ := (worker_progress (hI (i + k) h1) h1 n).1 (by rw [h3]; exact hw)
      have := hsmall (i + (k + 1)) (by omega)
      rw [show S (i + (k + 1)) = step (D (i + k)) (S (i + k)) (σ (i + k)) from hS (i + k), hm]
        at this
      exact this (by rw [p1]; exact h1) (by omega)
    | running =>
      exfalso
      obtain ⟨j, hj, hm⟩ := ends i n hw
      obtain ⟨k, rfl⟩ := Nat.exists_eq_add_of_le hj
      obtain ⟨h1, h2, h3⟩ := hsame k
      obtain ⟨p1, p2⟩ := (worker_progress (hI (i + k) h1) h1 n).2.2.1 (by rw [h3]; exact hw)
      have := hsmall (i + (k + 1)) (by omega)
      rw [show S (i + (k + 1)) = step (D (i + k)) (S (i + k)) (σ (i + k)) from hS (i + k), hm]
        at this
      exact this (by rw [p1]; exact h1) (by omega)
  have hset' : ∀ k, Settled (S (i + k)) := by
    intro k n; rw [(hsame k).2.2]; exact hset n
  -- and every tick brings the control thread closer to something useful
  have hdist : ∀ k, dist (S (i + (k + 1))) ≤ dist (S (i + k)) ∧
      (σ (i + k) = .ctl → dist (S (i + (k + 1))) < dist (S (i + k))) := by
    intro k
    obtain ⟨h1, h2, h3⟩ := hsame k
    have hw := worker_progress (hI (i + k) h1) h1
    rw [show S (i + (k + 1)) = step (D (i + k)) (S (i + k)) (σ (i + k)) from hS (i + k)]
    cases hm : σ (i + k) with
    | ctl =>
      have hsm := hsmall (i + (k + 1)) (by omega)
      rw [show S (i + (k + 1)) = step (D (i + k)) (S (i + k)) (σ (i + k)) from hS (i + k), hm]
        at hsm
      obtain ⟨p1, p2⟩ := ctl_progress (hG (i + k)) (hI (i + k) h1) h1 (hnf _ (by omega))
      rcases p2 with p2 | ⟨_, _, p4⟩
      · exact absurd (by rw [← h2]; exact p2) (hsm p1)
      · have := p4 (hset' k)
        exact ⟨Nat.le_of_lt this, fun _ => this⟩
    | ctlFail => exact absurd hm (noFault _).1
    | destroy => exact absurd hm (noFault _).2.1
    | fault f => exact absurd hm ((noFault _).2.2 f)
    | begin n =>
      have : (S (i + k)).worker n ≠ .queued := by
        rcases hset' k n with h | h <;> rw [h] <;> simp
      rw [(hw n).2.1 this]
      exact ⟨Nat.le_refl _, by simp⟩
    | finish n =>
      have : (S (i + k)).worker n ≠ .running := by
        rcases hset' k n with h | h <;> rw [h] <;> simp
      rw [(hw n).2.2.2 this]
      exact ⟨Nat.le_refl _, by simp⟩
  have hmono : ∀ k l, dist (S (i + (k + l))) ≤ dist (S (i + k)) := by
    intro k l
    induction l with
    | zero => exact Nat.le_refl _
    | succ l ihl =>
      have h := (hdist (k + l)).1
      rw [Nat.add_assoc] at h
      exact Nat.le_trans h ihl
  have hbad : ∀ q k, ¬ dist (S (i + k)) ≤ q := by
    intro q
    induction q with
    | zero =>
      intro k h
      obtain ⟨j, hj, hm⟩ := ticks (i + k)
      obtain ⟨l, rfl⟩ := Nat.exists_eq_add_of_le hj
      have h1 := hmono k l
      have h2 := (hdist (k + l)).2 (by rw [← Nat.add_assoc]; exact hm)
      omega
    | succ q ihq =>
      intro k h
      obtain ⟨j, hj, hm⟩ := ticks (i + k)
      obtain ⟨l, rfl⟩ := Nat.exists_eq_add_of_le hj
      have h1 := hmono k l
      have h2 := (hdist (k + l)).2 (by rw [← Nat.add_assoc]; exact hm)
      exact ihq (k + l + 1) (by omega)
  exact hbad _ 0 (Nat.le_refl _)

end Joque
