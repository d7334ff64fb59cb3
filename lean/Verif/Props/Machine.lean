import Verif.Spec.Scheduler
import Mathlib.Data.List.Nodup
import Verif.Proof.ExecInv4

/-! # The small scheduler by itself (C113) -/

namespace Joque

variable {α : Type} [DecidableEq α]

namespace Scheduler

/-- a state the machine can be in -/
structure OK (P : Workload α) (σ : Sched α) : Prop where
  runNd : σ.running.Nodup
  endNd : σ.ended.Nodup
  disj : ∀ n ∈ σ.running, n ∉ σ.ended
  runOpen : ∀ n ∈ σ.running, ¬ σ.Done n
  endOpen : ∀ n ∈ σ.ended, ¬ σ.Done n
  doneNd : (σ.done.map Prod.fst).Nodup
  inRun : ∀ n ∈ σ.running, P.task n
  inEnd : ∀ n ∈ σ.ended, P.task n
  inDone : ∀ p ∈ σ.done, P.task p.1
  active : ∀ n, n ∈ σ.running ∨ n ∈ σ.ended →
    (∀ m, P.after n m → σ.Done m) ∧ ¬ σ.Spoilt P n ∧ P.stale n
  settled : ∀ n st, (n, st) ∈ σ.done → (∀ m, P.after n m → σ.Done m) ∧
    (st = .depf ↔ σ.Spoilt P n) ∧
    (st ≠ .depf → ¬ P.stale n → st = .skip) ∧
    (st ≠ .depf → P.stale n →
      ∃ rc out, P.result n rc out ∧ st = if rc = 0 then .ok else .fail)

omit [DecidableEq α] in
theorem done_append {σ : Sched α} {n m : α} {st : Status} {d : List (α × Status)}
    (h : d = σ.done ++ [(n, st)]) {r e : List α} :
    Sched.Done ⟨r, e, d⟩ m ↔ σ.Done m ∨ m = n := by
  subst h
  unfold Sched.Done
  simp only [List.mem_append, List.mem_singleton, Prod.mk.injEq]
  constructor
  · rintro ⟨s, h | h⟩
    · exact .inl ⟨s, h⟩
    · exact .inr h.1
  · rintro (⟨s, h⟩ | rfl)
    · exact ⟨s, .inl h⟩
    · exact ⟨st, .inr ⟨rfl, rfl⟩⟩

omit [DecidableEq α] in
/-- Once everything a node is ordered after is done, whether it is spoilt does not change. -/
theorem spoilt_append {P : Workload α} (hP : P.OK)
    {σ : Sched α} {n a : α} {st : Status} (hn : ¬ σ.Done n)
    (ha : ∀ m, P.after a m → σ.Done m) {r e : List α} :
    Sched.Spoilt P ⟨r, e, σ.done ++ [(n, st)]⟩ a ↔ σ.Spoilt P a := by
  constructor
  · rintro ⟨m, he, hm⟩
    refine ⟨m, he, ?_⟩
    have hne : m ≠ n := by rintro rfl; exact hn (ha m (hP.req _ _ he))
    simpa [hne] using hm
  · rintro ⟨m, he, hm⟩
    refine ⟨m, he, ?_⟩
    rcases hm with hm | hm
    · exact .inl (List.mem_append_left _ hm)
    · exact .inr (List.mem_append_left _ hm)

omit [DecidableEq α] in
/-- adding a record keeps the state sound -/
theorem OK.record {P : Workload α} (hP : P.OK)
    {σ : Sched α} (h : OK P σ) {n : α} {st : Status} {e : List α}
    (he : ∀ m, m ∈ e ↔ m ∈ σ.ended ∧ m ≠ n) (hnd : e.Nodup) (hnr : n ∉ σ.running)
    (hn : ¬ σ.Done n) (hin : P.task n)
    (hp : ∀ m, P.after n m → σ.Done m)
    (h1 : st = .depf ↔ σ.Spoilt P n)
    (h2 : st ≠ .depf → ¬ P.stale n → st = .skip)
    (h3 : st ≠ .depf → P.stale n →
      ∃ rc out, P.result n rc out ∧ st = if rc = 0 then .ok else .fail) :
    OK P ⟨σ.running, e, σ.done ++ [(n, st)]⟩ where
  runNd := h.runNd
  endNd := hnd
  disj := fun m hm hx => h.disj m hm ((he m).1 hx).1
  runOpen := by
    intro m hm hd
    rcases (done_append rfl).1 hd with hd | rfl
    · exact h.runOpen m hm hd
    · exact hnr hm
  endOpen := by
    intro m hm hd
    rcases (done_append rfl).1 hd with hd | hd
    · exact h.endOpen m ((he m).1 hm).1 hd
    · exact ((he m).1 hm).2 hd
  doneNd := by
    simp only [List.map_append, List.map_cons, List.map_nil]
    rw [List.nodup_append]
    refine ⟨h.doneNd, by simp, ?_⟩
    intro a ha b hb hab
    simp at hb
    subst hb hab
    obtain ⟨p, hp, hx⟩ := List.mem_map.1 ha
    exact hn ⟨p.2, by rw [← hx]; exact hp⟩
  inRun := h.inRun
  inEnd := fun m hm => h.inEnd m ((he m).1 hm).1
  inDone := by
    intro p hp'
    rcases List.mem_append.1 hp' with hp' | hp'
    · exact h.inDone p hp'
    · simp at hp'; subst hp'; exact hin
  active := by
    intro m hm
    obtain ⟨a1, a2, a3⟩ := h.active m (hm.imp id fun hx => ((he m).1 hx).1)
    refine ⟨fun x hx => (done_append rfl).2 (.inl (a1 x hx)), ?_, a3⟩
    rw [spoilt_append hP hn a1]; exact a2
  settled := by
    intro m s hm
    rcases List.mem_append.1 hm with hm | hm
    · obtain ⟨a1, a2, a3, a4⟩ := h.settled m s hm
      exact ⟨fun x hx => (done_append rfl).2 (.inl (a1 x hx)), by rw [spoilt_append hP hn a1]; exact a2,
        a3, a4⟩
    · simp at hm
      obtain ⟨rfl, rfl⟩ := hm
      exact ⟨fun x hx => (done_append rfl).2 (.inl (hp x hx)), by rw [spoilt_append hP hn hp]; exact h1,
        h2, h3⟩

theorem OK.step {P : Workload α} (hP : P.OK)
    {σ τ : Sched α} {a : Act α} (h : OK P σ) (hs : Sched.Step P σ a τ) : OK P τ := by
  cases hs with
  | @begin n turn sound stale free thread =>
    obtain ⟨hin, ⟨u1, u2, u3⟩, hp⟩ := turn
    exact
      { runNd := List.nodup_cons.2 ⟨u1, h.runNd⟩
        endNd := h.endNd
        disj := by
          intro m hm
          rcases List.mem_cons.1 hm with rfl | hm
          · exact u2
          · exact h.disj m hm
        runOpen := by
          intro m hm
          rcases List.mem_cons.1 hm with rfl | hm
          · exact u3
          · exact h.runOpen m hm
        endOpen := h.endOpen
        doneNd := h.doneNd
        inRun := by
          intro m hm
          rcases List.mem_cons.1 hm with rfl | hm
          · exact hin
          · exact h.inRun m hm
        inEnd := h.inEnd
        inDone := h.inDone
        active := by
          intro m hm
          rcases hm with hm | hm
          · rcases List.mem_cons.1 hm with rfl | hm
            · exact ⟨hp, sound, stale⟩
            · exact h.active m (.inl hm)
          · exact h.active m (.inr hm)
        settled := h.settled }
  | @«end» n run =>
    exact
      { runNd := h.runNd.erase _
        endNd := List.nodup_cons.2 ⟨h.disj n run, h.endNd⟩
        disj := by
          intro m hm hx
          rw [h.runNd.mem_erase_iff] at hm
          rcases List.mem_cons.1 hx with hx | hx
          · exact hm.1 hx
          · exact h.disj m hm.2 hx
        runOpen := fun m hm => h.runOpen m (List.mem_of_mem_erase hm)
        endOpen := by
          intro m hm
          rcases List.mem_cons.1 hm with rfl | hm
          · exact h.runOpen m run
          · exact h.endOpen m hm
        doneNd := h.doneNd
        inRun := fun m hm => h.inRun m (List.mem_of_mem_erase hm)
        inEnd := by
          intro m hm
          rcases List.mem_cons.1 hm with rfl | hm
          · exact h.inRun m run
          · exact h.inEnd m hm
        inDone := h.inDone
        active := by
          intro m hm
          rcases hm with hm | hm
          · exact h.active m (.inl (List.mem_of_mem_erase hm))
          · rcases List.mem_cons.1 hm with rfl | hm
            · exact h.active m (.inl run)
            · exact h.active m (.inr hm)
        settled := h.settled }
  | @result n rc out ended res =>
    obtain ⟨a1, a2, a3⟩ := h.active n (.inr ended)
    have hnd : (if rc = 0 then Status.ok else .fail) ≠ .depf := by split <;> simp
    refine OK.record hP h (fun m => ?_) (h.endNd.erase _) (fun hx => h.disj n hx ended)
      (h.endOpen n ended) (h.inEnd n ended) a1 ⟨fun hx => absurd hx hnd, fun hx => absurd hx a2⟩
      (fun _ hx => absurd a3 hx) (fun _ _ => ⟨rc, out, res, rfl⟩)
    rw [h.endNd.mem_erase_iff, and_comm]
  | @skip n turn sound fresh =>
    obtain ⟨hin, ⟨u1, u2, u3⟩, hp⟩ := turn
    refine OK.record hP h (fun m => ⟨fun hm => ⟨hm, ?_⟩, fun hm => hm.1⟩) h.endNd u1 u3 hin hp
      ⟨fun hx => (by cases hx), fun hx => absurd hx sound⟩ (fun _ _ => rfl)
      (fun _ hx => absurd hx fresh)
    rintro rfl; exact u2 hm
  | @depf n turn spoilt =>
    obtain ⟨hin, ⟨u1, u2, u3⟩, hp⟩ := turn
    refine OK.record hP h (fun m => ⟨fun hm => ⟨hm, ?_⟩, fun hm => hm.1⟩) h.endNd u1 u3 hin hp
      ⟨fun _ => spoilt, fun _ => rfl⟩ (fun hx => absurd rfl hx) (fun hx => absurd rfl hx)
    rintro rfl; exact u2 hm

theorem OK.runs {P : Workload α} (hP : P.OK)
    {as : List (Act α)} {σ : Sched α} (h : Sched.Runs P as σ) : OK P σ := by
  induction h with
  | init => constructor <;> simp [Sched.init]
  | snoc _ hs ih => exact ih.step hP hs

omit [DecidableEq α] in
theorem OK.status_unique {P : Workload α} {σ : Sched α} (h : OK P σ) {n : α} {s t : Status}
    (hs : (n, s) ∈ σ.done) (ht : (n, t) ∈ σ.done) : s = t := by
  have := List.inj_on_of_nodup_map h.doneNd hs ht rfl
  exact (Prod.mk.inj this).2

/-- two sound states agree about every task both have settled -/
theorem OK.agree {P : Workload α} (hP : P.OK)
    {as : List (Act α)} {σ τ : Sched α} (h : Sched.Runs P as σ) (hτ : OK P τ) :
    ∀ n s t, (n, s) ∈ σ.done → (n, t) ∈ τ.done → s = t := by
  induction h with
  | init => intro n s t h; cases h
  | @snoc as σ σ' a hr hs ih =>
    have hσ := OK.runs hP hr
    have hσ' := hσ.step hP hs
    intro n s t hn ht
    by_cases hold : (n, s) ∈ σ.done
    · exact ih n s t hold ht
    obtain ⟨p1, p2, p3, p4⟩ := hσ'.settled n s hn
    obtain ⟨q1, q2, q3, q4⟩ := hτ.settled n t ht
    -- everything `n` is ordered after was settled before this step
    have hsub : ∀ m u, m ≠ n → (m, u) ∈ σ'.done → (m, u) ∈ σ.done := by
      intro m u hm hx
      cases hs with
      | begin => exact hx
      | «end» => exact hx
      | result | skip | depf =>
        rcases List.mem_append.1 hx with hx | hx
        · exact hx
        · rcases List.mem_append.1 hn with hn | hn
          · exact absurd hn hold
          · simp at hx hn; exact absurd (hx.1.trans hn.1.symm) hm
    have hself : ¬ P.after n n := by
      intro hx
      cases hs with
      | begin | «end» => exact hold hn
      | @result k _ _ ended _ =>
        rcases List.mem_append.1 hn with hn | hn
        · exact hold hn
        · simp at hn
          obtain ⟨rfl, _⟩ := hn
          exact hσ.endOpen n ended ((hσ.active n (.inr ended)).1 n hx)
      | skip turn | depf turn =>
        rcases List.mem_append.1 hn with hn | hn
        · exact hold hn
        · simp at hn
          obtain ⟨rfl, _⟩ := hn
          exact turn.2.1.2.2 (turn.2.2 _ hx)
    have hsp : σ'.Spoilt P n ↔ τ.Spoilt P n := by
      constructor
      · rintro ⟨m, he, hm⟩
        have hne : m ≠ n := by rintro rfl; exact hself (hP.req _ _ he)
        obtain ⟨u, hu⟩ := q1 m (hP.req _ _ he)
        refine ⟨m, he, ?_⟩
        rcases hm with hm | hm
        · rw [← ih m _ u (hsub m _ hne hm) hu] at hu; exact .inl hu
        · rw [← ih m _ u (hsub m _ hne hm) hu] at hu; exact .inr hu
      · rintro ⟨m, he, hm⟩
        have hne : m ≠ n := by rintro rfl; exact hself (hP.req _ _ he)
        obtain ⟨u, hu⟩ := p1 m (hP.req _ _ he)
        refine ⟨m, he, ?_⟩
        rcases hm with hm | hm
        · rw [ih m u _ (hsub m _ hne hu) hm] at hu; exact .inl hu
        · rw [ih m u _ (hsub m _ hne hu) hm] at hu; exact .inr hu
    by_cases hd : s = .depf
    · rw [hd]; exact (q2.2 (hsp.1 (p2.1 hd))).symm
    · have hd' : t ≠ .depf := fun hx => hd (p2.2 (hsp.2 (q2.1 hx)))
      by_cases hst : P.stale n
      · obtain ⟨rc, out, c1, c2⟩ := p4 hd hst
        obtain ⟨rc', out', c1', c2'⟩ := q4 hd' hst
        rw [c2, c2', (hP.det _ _ _ _ _ c1 c1').1]
      · rw [p3 hd hst, q3 hd' hst]

end Scheduler

open Scheduler

/-- **C113**, part 2.  The machine determines the results: two runs of it, whatever choices they
make, give every task they both settle the same status. -/
theorem C113_results (P : Workload α) (hP : P.OK)
    (as bs : List (Act α)) (σ τ : Sched α) (hσ : Sched.Runs P as σ) (hτ : Sched.Runs P bs τ)
    (n : α) (s t : Status) (hs : (n, s) ∈ σ.done) (ht : (n, t) ∈ τ.done) : s = t :=
  OK.agree hP hσ (OK.runs hP hτ) n s t hs ht

/-- **C113**, part 3.  The machine never gets stuck before every task is settled. -/
theorem C113_live (P : Workload α) (hP : P.OK) (l : List α) (hl : ∀ n, P.task n ↔ n ∈ l)
    (hnd : l.Nodup) (hin : ∀ a b, P.task a → P.after a b → P.task b)
    (hac : ¬ ∃ n, Relation.TransGen P.after n n) (hlim : 0 < P.limit)
    (hres : ∀ n, P.task n → ∃ rc out, P.result n rc out)
    (as : List (Act α)) (σ : Sched α) (hσ : Sched.Runs P as σ) :
    (∃ a τ, Sched.Step P σ a τ) ∨
    (σ.running = [] ∧ σ.ended = [] ∧ (σ.done.map Prod.fst).Perm l) := by
  classical
  have hO := OK.runs hP hσ
  rcases hr : σ.running with _ | ⟨n, k⟩
  case cons => exact .inl ⟨_, _, .end (n := n) (by rw [hr]; simp)⟩
  rcases he : σ.ended with _ | ⟨n, k⟩
  case cons =>
    have hn : n ∈ σ.ended := by rw [he]; simp
    obtain ⟨rc, out, h⟩ := hres n (hO.inEnd n hn)
    exact .inl ⟨_, _, .result hn h⟩
  by_cases hall : ∀ n ∈ l, σ.Done n
  · refine .inr ⟨rfl, rfl, ?_⟩
    refine (List.perm_ext_iff_of_nodup hO.doneNd hnd).2 fun n => ⟨?_, ?_⟩
    · intro h
      obtain ⟨p, hp, rfl⟩ := List.mem_map.1 h
      exact (hl _).1 (hO.inDone p hp)
    · intro h
      obtain ⟨st, hx⟩ := hall n h
      exact List.mem_map.2 ⟨_, hx, rfl⟩
  · push Not at hall
    obtain ⟨n0, hn0, hd0⟩ := hall
    have hne : l.filter (fun n => ¬ σ.Done n) ≠ [] := by
      intro h
      have : n0 ∈ l.filter (fun n => ¬ σ.Done n) := by simp [hn0, hd0]
      rw [h] at this; cases this
    obtain ⟨n, hn, hmin⟩ := exists_minimal (R := P.after) hac _ _ (Nat.le_refl _) hne
    have hn' := List.mem_filter.1 hn
    have hturn : σ.Turn P n := by
      refine ⟨(hl n).2 hn'.1, ⟨by rw [hr]; simp, by rw [he]; simp, by simpa using hn'.2⟩,
        fun m hm => ?_⟩
      by_contra hx
      exact hmin m (List.mem_filter.2 ⟨(hl m).1 (hin n m ((hl n).2 hn'.1) hm), by simpa using hx⟩) hm
    by_cases hsp : σ.Spoilt P n
    · exact .inl ⟨_, _, .depf hturn hsp⟩
    · by_cases hst : P.stale n
      · exact .inl ⟨_, _, .begin hturn hsp hst (by rw [hr]; simp)
          (by rw [hr]; exact hlim)⟩
      · exact .inl ⟨_, _, .skip hturn hsp hst⟩

/-- **C113**, part 4.  A run of the machine has at most three actions per task. -/
theorem C113_bound (P : Workload α) (hP : P.OK) (l : List α) (hl : ∀ n, P.task n → n ∈ l)
    (as : List (Act α)) (σ : Sched α) (hσ : Sched.Runs P as σ) : as.length ≤ 3 * l.length := by
  have hO := OK.runs hP hσ
  have h1 : as.length ≤ σ.running.length + 2 * σ.ended.length + 3 * σ.done.length := by
    clear hO
    induction hσ with
    | init => simp
    | @snoc as σ σ' a hr hs ih =>
      cases hs with
      | begin => simp only [List.length_append, List.length_cons, List.length_nil]; omega
      | «end» run =>
        have := List.length_erase_of_mem run
        have := List.length_pos_of_mem run
        simp only [List.length_append, List.length_cons, List.length_nil]; omega
      | result ended =>
        have := List.length_erase_of_mem ended
        have := List.length_pos_of_mem ended
        simp only [List.length_append, List.length_cons, List.length_nil]; omega
      | skip | depf => simp only [List.length_append, List.length_cons, List.length_nil]; omega
  have h2 : (σ.running ++ σ.ended ++ σ.done.map Prod.fst).length ≤ l.length := by
    refine List.Subperm.length_le (List.subperm_of_subset ?_ ?_)
    · rw [List.nodup_append, List.nodup_append]
      refine ⟨⟨hO.runNd, hO.endNd, ?_⟩, hO.doneNd, ?_⟩
      · rintro a ha b hb rfl; exact hO.disj a ha hb
      · rintro a ha b hb rfl
        obtain ⟨p, hp, rfl⟩ := List.mem_map.1 hb
        rcases List.mem_append.1 ha with ha | ha
        · exact hO.runOpen _ ha ⟨p.2, hp⟩
        · exact hO.endOpen _ ha ⟨p.2, hp⟩
    · intro x hx
      rcases List.mem_append.1 hx with hx | hx
      · rcases List.mem_append.1 hx with hx | hx
        · exact hl x (hO.inRun x hx)
        · exact hl x (hO.inEnd x hx)
      · obtain ⟨p, hp, rfl⟩ := List.mem_map.1 hx
        exact hl _ (hO.inDone p hp)
  simp only [List.length_append, List.length_map] at h2
  omega

/-- **C113**, part 5.  The machine is safe: jobs that execute together share no resource, they are not
too many, and they wait for nothing. -/
theorem C113_safe (P : Workload α) (hP : P.OK)
    (as : List (Act α)) (σ : Sched α) (hσ : Sched.Runs P as σ) :
    (∀ a ∈ σ.running, ∀ b ∈ σ.running, a ≠ b → ∀ r ∈ P.resources a, r ∉ P.resources b) ∧
    σ.running.length ≤ P.limit ∧
    (∀ a ∈ σ.running, ∀ b, Relation.TransGen (P.after) a b →
      (∃ st, (b, st) ∈ σ.done) ∧ b ∉ σ.running ∧ b ∉ σ.ended) := by
  refine ⟨?_, ?_, ?_⟩
  · induction hσ with
    | init => intro a ha; cases ha
    | @snoc as σ σ' x hr hs ih =>
      cases hs with
      | @begin n turn sound stale free thread =>
        intro a ha b hb hab r hra' hrb
        rcases List.mem_cons.1 ha with h1 | h1 <;> rcases List.mem_cons.1 hb with h2 | h2
        · exact hab (h1.trans h2.symm)
        · subst h1; exact free b h2 r hra' hrb
        · subst h2; exact free a h1 r hrb hra'
        · exact ih a h1 b h2 hab r hra' hrb
      | «end» run =>
        exact fun a ha b hb => ih a (List.mem_of_mem_erase ha) b (List.mem_of_mem_erase hb)
      | result | skip | depf => exact ih
  · induction hσ with
    | init => simp [Sched.init]
    | @snoc as σ σ' x hr hs ih =>
      cases hs with
      | begin _ _ _ _ thread => exact thread
      | «end» run => exact Nat.le_trans List.length_erase_le ih
      | result | skip | depf => exact ih
  · intro a ha b hab
    have hO := OK.runs hP hσ
    have hd : ∀ b, Relation.TransGen (P.after) a b → σ.Done b := by
      intro b hb
      induction hb with
      | single h => exact (hO.active a (.inl ha)).1 _ h
      | tail _ h ih => obtain ⟨st, hst⟩ := ih; exact (hO.settled _ _ hst).1 _ h
    exact ⟨hd b hab, fun h => hO.runOpen b h (hd b hab), fun h => hO.endOpen b h (hd b hab)⟩

/-- **C113**, part 6.  What the machine's statuses mean. -/
theorem C113_meaning (P : Workload α) (hP : P.OK)
    (as : List (Act α)) (σ : Sched α) (hσ : Sched.Runs P as σ) (n : α) (st : Status)
    (hn : (n, st) ∈ σ.done) :
    (st = .depf ↔ ∃ m, P.requires n m ∧ ((m, .fail) ∈ σ.done ∨ (m, .depf) ∈ σ.done)) ∧
    (st = .skip ↔ st ≠ .depf ∧ ¬ P.stale n) ∧
    (st = .ok ↔ st ≠ .depf ∧ P.stale n ∧ ∃ out, P.result n 0 out) ∧
    (st = .fail ↔ st ≠ .depf ∧ P.stale n ∧ ∃ rc out, P.result n rc out ∧ rc ≠ 0) ∧
    P.task n ∧ ∀ t, (n, t) ∈ σ.done → t = st := by
  have hO := OK.runs hP hσ
  obtain ⟨-, p2, p3, p4⟩ := hO.settled n st hn
  refine ⟨p2, ?_, ?_, ?_, hO.inDone _ hn, fun t ht => hO.status_unique ht hn⟩
  all_goals
    by_cases hd : st = .depf
    · simp [hd]
    · by_cases hst : P.stale n
      · obtain ⟨rc, out, c1, c2⟩ := p4 hd hst
        have hu : ∀ rc' out', P.result n rc' out' → rc' = rc := fun rc' out' h =>
          (hP.det _ _ _ _ _ h c1).1
        by_cases h0 : rc = 0
        · subst h0; simp [c2, hst] <;> grind
        · simp [h0, c2, hst] <;> grind
      · simp [p3 hd hst, hst]

end Joque
