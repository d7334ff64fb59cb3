import Verif.Spec.Look
import Verif.Props.Process
import Verif.Props.Outcome

/-! # C71: `is_invalidated` while the file system changes -/

namespace Joque

theorem Look.bind_ok {m : Look α} {f : α → Look β} {e : QEnv} {k : Nat} {a : α} {k' : Nat}
    (h : m e k = (.ok a, k')) : Look.bind m f e k = f a e k' := by
  unfold Look.bind; rw [h]

/-! ## nothing changes -/

/-- `m` gives `a` in an environment that does not change -/
def Gives (e : QEnv) (m : Look α) (a : α) : Prop := ∀ k, ∃ k', m e k = (.ok a, k')

theorem Gives.pure (e : QEnv) (a : α) : Gives e (Look.pure a) a := fun k => ⟨k, rfl⟩

theorem Gives.bind {e : QEnv} {m : Look α} {a : α} {f : α → Look β} {b : β} (h : Gives e m a)
    (h' : Gives e (f a) b) : Gives e (Look.bind m f) b := by
  intro k
  obtain ⟨k', hk⟩ := h k
  rw [Look.bind_ok hk]
  exact h' k'

theorem Still.exists {e : QEnv} {fs : FS} (h : Still e fs) (p : Str) :
    Gives e (lookExists p) (fs p).isSome := by
  intro k
  refine ⟨k + 1, ?_⟩
  unfold lookExists
  rw [h.files]

theorem Still.writeTime {e : QEnv} {fs : FS} (h : Still e fs) (p : Str) :
    Gives e (lookWriteTime p) (Joque.writeTime fs p) := by
  refine (h.exists p).bind ?_
  cases hf : fs p with
  | none => rw [writeTime_none hf]; exact Gives.pure e 0
  | some f =>
    intro k
    refine ⟨k + 1, ?_⟩
    simp only [Option.isSome_some, if_true]
    unfold lookTime
    rw [h.files, hf, writeTime_some hf]

theorem Still.pair {e : QEnv} {fs : FS} (h : Still e fs) (a b : Str) :
    Gives e (lookPair a b) (Joque.writeTime fs a, Joque.writeTime fs b) := by
  intro k
  unfold lookPair
  split
  · refine Gives.bind (h.writeTime a) (Gives.bind (h.writeTime b) ?_) k
    exact Gives.pure e _
  · refine Gives.bind (h.writeTime b) (Gives.bind (h.writeTime a) ?_) k
    exact Gives.pure e _

theorem Still.min {e : QEnv} {fs : FS} (h : Still e fs) (m : Str) (xs : List Str) :
    Gives e (lookMin m xs) (minOf (Joque.writeTime fs) m xs) := by
  induction xs generalizing m with
  | nil => exact Gives.pure e m
  | cons x xs ih =>
    refine (h.pair x m).bind ?_
    unfold minOf
    dsimp only
    split <;> exact ih _

theorem Still.max {e : QEnv} {fs : FS} (h : Still e fs) (m : Str) (xs : List Str) :
    Gives e (lookMax m xs) (maxOf (Joque.writeTime fs) m xs) := by
  induction xs generalizing m with
  | nil => exact Gives.pure e m
  | cons x xs ih =>
    refine (h.pair m x).bind ?_
    unfold maxOf
    dsimp only
    split <;> exact ih _

theorem Still.all {e : QEnv} {fs : FS} (h : Still e fs) (xs : List Str) :
    Gives e (lookAll xs) (xs.all fun q => (fs q).isSome) := by
  induction xs with
  | nil => exact Gives.pure e true
  | cons x xs ih =>
    refine (h.exists x).bind ?_
    rw [List.all_cons]
    cases (fs x).isSome with
    | true => exact ih
    | false => exact Gives.pure e false

theorem Still.retcode {e : QEnv} {fs : FS} (h : Still e fs) (p : Process) :
    Gives e (lookRetcode p) (retcodeCheck fs p) := by
  unfold lookRetcode retcodeCheck
  cases p.retcodeFile with
  | none => exact Gives.pure e none
  | some f =>
    refine (h.exists f).bind ?_
    dsimp only
    cases hf : fs f with
    | none => exact Gives.pure e _
    | some file =>
      have : Gives e (lookInt f) (readInt file.content) := by
        intro k
        refine ⟨k + 1, ?_⟩
        unfold lookInt
        rw [h.files, hf, h.readable]
        rfl
      exact this.bind (Gives.pure e _)

/-- **C71**: if nothing changes and no query fails, the answer is that of the simpler model. -/
theorem C71_still (tf : TimeFmt) (p : Process) (e : QEnv) (fs : FS) (h : Still e fs) (k : Nat) :
    p.askOut tf e k = .answer (p.isInvalidated tf fs) := by
  have : Gives e (p.ask tf) (p.isInvalidated tf fs) := by
    unfold Process.ask Process.isInvalidated
    refine (h.retcode p).bind ?_
    cases retcodeCheck fs p with
    | some r => exact Gives.pure e r
    | none =>
      cases p.output with
      | nil => exact Gives.pure e _
      | cons o os =>
        cases p.input with
        | nil => exact (h.all (o :: os)).bind (Gives.pure e _)
        | cons i is =>
          refine (h.min o os).bind ((h.exists _).bind ?_)
          dsimp only
          cases hf : fs (minOf (Joque.writeTime fs) o os) with
          | none => exact Gives.pure e _
          | some f =>
            exact (h.max i is).bind ((h.writeTime _).bind ((h.writeTime _).bind (Gives.pure e _)))
  obtain ⟨k', hk⟩ := this k
  unfold Process.askOut
  rw [hk]

/-! ## exceptions -/

/-- `m` only throws if disturbed in a query about one of `ps`, and makes at most `n` queries -/
def Careful (ps : List Str) (n : Nat) (m : Look α) : Prop :=
  ∀ e k, k ≤ (m e k).2 ∧ (m e k).2 ≤ k + n ∧
    ∀ w, (m e k).1 = .error w → Disturbed e k (m e k).2 ps w

theorem Careful.pure {ps : List Str} {n : Nat} (a : α) : Careful ps n (Look.pure a) :=
  fun _ k => ⟨Nat.le_refl k, Nat.le_add_right k n, fun _ h => by cases h⟩

theorem Disturbed.widen {e : QEnv} {a a' b b' : Nat} {ps : List Str} {w : Str}
    (h : Disturbed e a b ps w) (ha : a' ≤ a) (hb : b ≤ b') : Disturbed e a' b' ps w := by
  obtain ⟨j, h1, h2, p, hp, h3⟩ := h
  refine ⟨j, Nat.le_trans ha h1, Nat.lt_of_lt_of_le h2 hb, p, hp, ?_⟩
  rcases h3 with h3 | ⟨h3, h4, i, h5, h6, h7⟩
  · exact .inl h3
  · exact .inr ⟨h3, h4, i, h5, Nat.le_trans ha h6, h7⟩

theorem Careful.bindOf {ps : List Str} {n n' : Nat} {m : Look α} {f : α → Look β} {Q : α → Prop}
    (h : Careful ps n m) (hQ : ∀ e k a k', m e k = (.ok a, k') → Q a)
    (h' : ∀ a, Q a → Careful ps n' (f a)) : Careful ps (n + n') (Look.bind m f) := by
  intro e k
  obtain ⟨h1, h2, h3⟩ := h e k
  unfold Look.bind
  cases hm : m e k with
  | mk r k1 =>
    rw [hm] at h1 h2 h3
    dsimp only at h1 h2 h3
    cases r with
    | error w => exact ⟨h1, by dsimp only; omega, fun w' hw => h3 w' (by cases hw; rfl)⟩
    | ok a =>
      obtain ⟨g1, g2, g3⟩ := h' a (hQ e k a k1 hm) e k1
      exact ⟨Nat.le_trans h1 g1, by dsimp only; omega,
        fun w hw => (g3 w hw).widen h1 (Nat.le_refl _)⟩

theorem Careful.bind {ps : List Str} {n n' : Nat} {m : Look α} {f : α → Look β}
    (h : Careful ps n m) (h' : ∀ a, Careful ps n' (f a)) : Careful ps (n + n') (Look.bind m f) :=
  h.bindOf (Q := fun _ => True) (fun _ _ _ _ _ => trivial) fun a _ => h' a

theorem Careful.more {ps : List Str} {n n' : Nat} {m : Look α} (h : Careful ps n m) (hn : n ≤ n') :
    Careful ps n' m := fun e k => by
  obtain ⟨h1, h2, h3⟩ := h e k
  exact ⟨h1, by omega, h3⟩

theorem careful_exists {ps : List Str} {p : Str} (hp : p ∈ ps) : Careful ps 1 (lookExists p) := by
  intro e k
  refine ⟨Nat.le_succ k, Nat.le_refl _, fun w hw => ?_⟩
  unfold lookExists at hw ⊢
  refine ⟨k, Nat.le_refl k, Nat.lt_succ_self k, p, hp, .inl ?_⟩
  cases hf : e.files k p with
  | ok o => rw [hf] at hw; cases hw
  | error w' => rw [hf] at hw; cases hw; rfl

theorem careful_int {ps : List Str} {p : Str} : Careful ps 1 (lookInt p) := by
  intro e k
  refine ⟨Nat.le_succ k, Nat.le_refl _, fun w hw => ?_⟩
  unfold lookInt at hw
  dsimp only at hw
  split at hw <;> cases hw

theorem careful_writeTime {ps : List Str} {p : Str} (hp : p ∈ ps) :
    Careful ps 2 (lookWriteTime p) := by
  intro e k
  unfold lookWriteTime
  cases hf : e.files k p with
  | error w' =>
    have : Look.bind (lookExists p) (fun b => if b then lookTime p else Look.pure 0) e k =
        (.error w', k + 1) := by
      unfold Look.bind lookExists; rw [hf]
    rw [this]
    refine ⟨Nat.le_succ k, by dsimp only; omega, fun w hw => ?_⟩
    cases hw
    exact ⟨k, Nat.le_refl k, Nat.lt_succ_self k, p, hp, .inl hf⟩
  | ok o =>
    have hb : Look.bind (lookExists p) (fun b => if b then lookTime p else Look.pure 0) e k =
        (if o.isSome then lookTime p else Look.pure 0) e (k + 1) :=
      Look.bind_ok (by unfold lookExists; rw [hf])
    rw [hb]
    cases o with
    | none => exact ⟨Nat.le_succ k, by show k + 1 ≤ k + 2; omega, fun w hw => by cases hw⟩
    | some f =>
      simp only [Option.isSome_some, if_true]
      unfold lookTime
      refine ⟨by dsimp only; omega, Nat.le_refl _, fun w hw => ?_⟩
      refine ⟨k + 1, Nat.le_succ k, Nat.lt_succ_self _, p, hp, ?_⟩
      cases hg : e.files (k + 1) p with
      | error w' => rw [hg] at hw; cases hw; exact .inl rfl
      | ok o =>
        rw [hg] at hw
        cases o with
        | some f => cases hw
        | none => cases hw; exact .inr ⟨rfl, rfl, k, rfl, Nat.le_refl k, f, hf⟩

theorem careful_pair {ps : List Str} {a b : Str} (ha : a ∈ ps) (hb : b ∈ ps) :
    Careful ps 4 (lookPair a b) := by
  intro e k
  unfold lookPair
  split
  · exact ((careful_writeTime ha).bind fun _ =>
      (careful_writeTime hb).bind (n' := 0) fun _ => Careful.pure _) e k
  · exact ((careful_writeTime hb).bind fun _ =>
      (careful_writeTime ha).bind (n' := 0) fun _ => Careful.pure _) e k

theorem careful_min {ps : List Str} (xs : List Str) (m : Str) (hm : m ∈ ps) (hx : ∀ x ∈ xs, x ∈ ps) :
    Careful ps (4 * xs.length) (lookMin m xs) := by
  induction xs generalizing m with
  | nil => exact Careful.pure m
  | cons x xs ih =>
    have h1 := hx x List.mem_cons_self
    have h2 : ∀ y ∈ xs, y ∈ ps := fun y hy => hx y (List.mem_cons_of_mem _ hy)
    refine ((careful_pair h1 hm).bind (n' := 4 * xs.length) fun t => ?_).more
      (by rw [List.length_cons]; omega)
    split
    · exact ih x h1 h2
    · exact ih m hm h2

theorem careful_max {ps : List Str} (xs : List Str) (m : Str) (hm : m ∈ ps) (hx : ∀ x ∈ xs, x ∈ ps) :
    Careful ps (4 * xs.length) (lookMax m xs) := by
  induction xs generalizing m with
  | nil => exact Careful.pure m
  | cons x xs ih =>
    have h1 := hx x List.mem_cons_self
    have h2 : ∀ y ∈ xs, y ∈ ps := fun y hy => hx y (List.mem_cons_of_mem _ hy)
    refine ((careful_pair hm h1).bind (n' := 4 * xs.length) fun t => ?_).more
      (by rw [List.length_cons]; omega)
    split
    · exact ih x h1 h2
    · exact ih m hm h2

theorem Look.bind_inv {m : Look α} {f : α → Look β} {e : QEnv} {k k' : Nat} {b : β}
    (h : Look.bind m f e k = (.ok b, k')) : ∃ a k1, m e k = (.ok a, k1) ∧ f a e k1 = (.ok b, k') := by
  unfold Look.bind at h
  cases hm : m e k with
  | mk r k1 =>
    rw [hm] at h
    cases r with
    | error w => cases h
    | ok a => exact ⟨a, k1, rfl, h⟩

theorem lookMin_mem (xs : List Str) (m : Str) (e : QEnv) (k : Nat) (a : Str) (k' : Nat)
    (h : lookMin m xs e k = (.ok a, k')) : a ∈ m :: xs := by
  induction xs generalizing m k with
  | nil => cases h; exact List.mem_cons_self
  | cons x xs ih =>
    obtain ⟨t, k1, _, h2⟩ := Look.bind_inv h
    split at h2
    · exact List.mem_cons_of_mem _ (ih x k1 h2)
    · rcases List.mem_cons.1 (ih m k1 h2) with h | h
      · exact h ▸ List.mem_cons_self
      · exact List.mem_cons_of_mem _ (List.mem_cons_of_mem _ h)

theorem lookMax_mem (xs : List Str) (m : Str) (e : QEnv) (k : Nat) (a : Str) (k' : Nat)
    (h : lookMax m xs e k = (.ok a, k')) : a ∈ m :: xs := by
  induction xs generalizing m k with
  | nil => cases h; exact List.mem_cons_self
  | cons x xs ih =>
    obtain ⟨t, k1, _, h2⟩ := Look.bind_inv h
    split at h2
    · exact List.mem_cons_of_mem _ (ih x k1 h2)
    · rcases List.mem_cons.1 (ih m k1 h2) with h | h
      · exact h ▸ List.mem_cons_self
      · exact List.mem_cons_of_mem _ (List.mem_cons_of_mem _ h)

theorem careful_all {ps : List Str} (xs : List Str) (hx : ∀ x ∈ xs, x ∈ ps) :
    Careful ps xs.length (lookAll xs) := by
  induction xs with
  | nil => exact Careful.pure true
  | cons x xs ih =>
    refine ((careful_exists (hx x List.mem_cons_self)).bind (n' := xs.length) fun b => ?_).more
      (by rw [List.length_cons]; omega)
    split
    · exact ih fun y hy => hx y (List.mem_cons_of_mem _ hy)
    · exact Careful.pure _

theorem careful_retcode (p : Process) : Careful p.files 2 (lookRetcode p) := by
  unfold lookRetcode
  cases hr : p.retcodeFile with
  | none => exact Careful.pure none
  | some f =>
    refine (careful_exists (by simp [Process.files, hr])).bind (n' := 1) fun b => ?_
    split
    · exact careful_int.bind (n' := 0) fun _ => Careful.pure _
    · exact Careful.pure _

theorem careful_ask (tf : TimeFmt) (p : Process) :
    Careful p.files (2 + (4 * (p.output.length + p.input.length) + 1)) (p.ask tf) := by
  unfold Process.ask
  refine (careful_retcode p).bind fun r => ?_
  cases r with
  | some r => exact Careful.pure r
  | none =>
    dsimp only
    cases ho : p.output with
    | nil => exact Careful.pure _
    | cons o os =>
      have hos : ∀ x ∈ o :: os, x ∈ p.files := fun x hx => by
        simp only [Process.files, ho, List.mem_append]
        exact .inl (.inr hx)
      cases hi : p.input with
      | nil =>
        exact ((careful_all (o :: os) hos).bind (n' := 0) fun _ => Careful.pure _).more
          (by simp only [List.length_cons]; omega)
      | cons i is =>
        have his : ∀ x ∈ i :: is, x ∈ p.files :=
          fun x hx => by
            simp only [Process.files, hi, List.mem_append]
            exact .inr hx
        unfold lookStale
        refine Careful.more (n := 4 * os.length + (1 + (4 * is.length + (2 + (2 + 0))))) ?_
          (by simp only [List.length_cons]; omega)
        refine Careful.bindOf (careful_min os o (hos o List.mem_cons_self)
          fun y hy => hos y (List.mem_cons_of_mem _ hy)) (lookMin_mem os o) fun oldest ho' => ?_
        refine Careful.bind (careful_exists (hos _ ho')) fun b => ?_
        split
        · refine Careful.bindOf (careful_max is i (his i List.mem_cons_self)
            fun y hy => his y (List.mem_cons_of_mem _ hy)) (lookMax_mem is i) fun latest hi' => ?_
          exact Careful.bind (careful_writeTime (hos _ ho')) fun _ =>
            Careful.bind (careful_writeTime (his _ hi')) fun _ => Careful.pure _
        · exact Careful.pure _

/-- **C71**: `is_invalidated` of a process throws only if a query about one of its files failed, or
such a file was there at one query and missing at the next. -/
theorem C71_throws (tf : TimeFmt) (p : Process) (e : QEnv) (k : Nat) (w : Str)
    (h : p.askOut tf e k = .throws w) : Disturbed e k (p.ask tf e k).2 p.files w := by
  refine (careful_ask tf p e k).2.2 w ?_
  unfold Process.askOut at h
  cases hm : (p.ask tf e k).1 with
  | ok r => rw [hm] at h; cases h
  | error w' => rw [hm] at h; cases h; rfl

/-- **C71**: the number of queries is bounded. -/
theorem C71_queries (tf : TimeFmt) (p : Process) (e : QEnv) (k : Nat) :
    (p.ask tf e k).2 ≤ k + 4 * (p.output.length + p.input.length) + 3 := by
  have := (careful_ask tf p e k).2.1
  omega

/-! ## only inputs change -/

theorem QEnv.stays.from {e : QEnv} {k k' : Nat} {q : Str} (h : e.stays k q) (hk : k ≤ k') :
    e.stays k' q := fun j hj => h j (Nat.le_trans hk hj)

theorem stays_exists {e : QEnv} {k : Nat} {q : Str} (h : e.stays k q) :
    lookExists q e k = (.ok true, k + 1) := by
  obtain ⟨f, hf⟩ := h k (Nat.le_refl k)
  unfold lookExists
  rw [hf]
  rfl

theorem stays_time {e : QEnv} {k : Nat} {q : Str} (h : e.stays k q) :
    lookWriteTime q e k = (.ok (e.time (k + 1) q), k + 2) := by
  unfold lookWriteTime
  rw [Look.bind_ok (stays_exists h)]
  obtain ⟨f, hf⟩ := h (k + 1) (Nat.le_succ k)
  simp only [if_true]
  unfold lookTime QEnv.time
  rw [hf]

theorem stays_pair {e : QEnv} {k : Nat} {a b : Str} (ha : e.stays k a) (hb : e.stays k b) :
    ∃ i j, k ≤ i ∧ i ≤ k + 4 ∧ k ≤ j ∧ j ≤ k + 4 ∧
      lookPair a b e k = (.ok (e.time i a, e.time j b), k + 4) := by
  unfold lookPair
  split
  · refine ⟨k + 1, k + 3, by omega, by omega, by omega, by omega, ?_⟩
    rw [Look.bind_ok (stays_time ha), Look.bind_ok (stays_time (hb.from (Nat.le_add_right k 2)))]
    rfl
  · refine ⟨k + 3, k + 1, by omega, by omega, by omega, by omega, ?_⟩
    rw [Look.bind_ok (stays_time hb), Look.bind_ok (stays_time (ha.from (Nat.le_add_right k 2)))]
    rfl

theorem time_mono {e : QEnv} {k : Nat} {q : Str} (h : ∀ j, k ≤ j → e.time j q ≤ e.time (j + 1) q)
    {a b : Nat} (ha : k ≤ a) (hab : a ≤ b) : e.time a q ≤ e.time b q := by
  induction b with
  | zero => rw [Nat.le_zero.1 hab]; exact Int.le_refl _
  | succ b ih =>
    rcases Nat.lt_or_ge b a with hb | hb
    · have : a = b + 1 := by omega
      rw [this]; exact Int.le_refl _
    · exact Int.le_trans (ih hb) (h b (Nat.le_trans ha hb))

/-- `max_element` over files that only get newer -/
theorem lookMax_newer {e : QEnv} {k0 : Nat} (xs : List Str) (m : Str) (k : Nat) (hk : k0 ≤ k)
    (hs : ∀ x ∈ m :: xs, e.stays k0 x)
    (hn : ∀ x ∈ m :: xs, ∀ j, k0 ≤ j → e.time j x ≤ e.time (j + 1) x) :
    ∃ r k', lookMax m xs e k = (.ok r, k') ∧ k ≤ k' ∧ r ∈ m :: xs ∧
      ∀ x ∈ m :: xs, e.time k x ≤ e.time k' r := by
  induction xs generalizing m k with
  | nil =>
    refine ⟨m, k, rfl, Nat.le_refl k, List.mem_cons_self, fun x hx => ?_⟩
    rw [List.mem_singleton.1 hx]; exact Int.le_refl _
  | cons x xs ih =>
    have hm := hs m List.mem_cons_self
    have hx := hs x (List.mem_cons_of_mem _ List.mem_cons_self)
    obtain ⟨i, j, i1, i2, j1, j2, hp⟩ := stays_pair (hm.from hk) (hx.from hk)
    have hb : lookMax m (x :: xs) e k =
        (if e.time i m < e.time j x then lookMax x xs else lookMax m xs) e (k + 4) :=
      Look.bind_ok hp
    rw [hb]
    have tm : ∀ {a b : Nat}, k0 ≤ a → a ≤ b → e.time a m ≤ e.time b m :=
      time_mono (hn m List.mem_cons_self)
    have tx : ∀ {a b : Nat}, k0 ≤ a → a ≤ b → e.time a x ≤ e.time b x :=
      time_mono (hn x (List.mem_cons_of_mem _ List.mem_cons_self))
    have trest : ∀ y ∈ xs, ∀ {a b : Nat}, k0 ≤ a → a ≤ b → e.time a y ≤ e.time b y :=
      fun y hy => time_mono (hn y (List.mem_cons_of_mem _ (List.mem_cons_of_mem _ hy)))
    have ti1 := tm hk i1
    have ti2 := tm (Nat.le_trans hk i1) i2
    have tj1 := tx hk j1
    have tj2 := tx (Nat.le_trans hk j1) j2
    split
    · obtain ⟨r, k', h1, h2, h3, h4⟩ := ih x (k + 4) (by omega)
        (fun y hy => hs y (List.mem_cons_of_mem _ hy)) (fun y hy => hn y (List.mem_cons_of_mem _ hy))
      refine ⟨r, k', h1, by omega, List.mem_cons_of_mem _ h3, fun y hy => ?_⟩
      have hx' := h4 x List.mem_cons_self
      rcases List.mem_cons.1 hy with rfl | hy
      · omega
      · rcases List.mem_cons.1 hy with rfl | hy'
        · omega
        · have := trest y hy' hk (Nat.le_add_right k 4)
          have := h4 y hy
          omega
    · have hsub : ∀ y ∈ m :: xs, y ∈ m :: x :: xs := fun y hy => by
        rcases List.mem_cons.1 hy with rfl | hy
        · exact List.mem_cons_self
        · exact List.mem_cons_of_mem _ (List.mem_cons_of_mem _ hy)
      obtain ⟨r, k', h1, h2, h3, h4⟩ := ih m (k + 4) (by omega)
        (fun y hy => hs y (hsub y hy)) (fun y hy => hn y (hsub y hy))
      refine ⟨r, k', h1, by omega, hsub r h3, fun y hy => ?_⟩
      have hm' := h4 m List.mem_cons_self
      rcases List.mem_cons.1 hy with rfl | hy
      · omega
      · rcases List.mem_cons.1 hy with rfl | hy'
        · omega
        · have := trest y hy' hk (Nat.le_add_right k 4)
          have := h4 y (List.mem_cons_of_mem _ hy')
          omega

/-- `min_element` over files that do not change -/
theorem lookMin_same {e : QEnv} {k0 : Nat} (xs : List Str) (m : Str) (k : Nat) (hk : k0 ≤ k)
    (hs : ∀ x ∈ m :: xs, e.stays k0 x)
    (hn : ∀ x ∈ m :: xs, ∀ j, k0 ≤ j → e.time j x = e.time k0 x) :
    ∃ r k', lookMin m xs e k = (.ok r, k') ∧ k ≤ k' ∧ r ∈ m :: xs ∧
      ∀ x ∈ m :: xs, e.time k0 r ≤ e.time k0 x := by
  induction xs generalizing m k with
  | nil =>
    refine ⟨m, k, rfl, Nat.le_refl k, List.mem_cons_self, fun x hx => ?_⟩
    rw [List.mem_singleton.1 hx]; exact Int.le_refl _
  | cons x xs ih =>
    have hmm : m ∈ m :: x :: xs := List.mem_cons_self
    have hxm : x ∈ m :: x :: xs := List.mem_cons_of_mem _ List.mem_cons_self
    obtain ⟨i, j, i1, _, j1, _, hp⟩ := stays_pair ((hs x hxm).from hk) ((hs m hmm).from hk)
    have hb : lookMin m (x :: xs) e k =
        (if e.time i x < e.time j m then lookMin x xs else lookMin m xs) e (k + 4) :=
      Look.bind_ok hp
    rw [hb, hn x hxm i (by omega), hn m hmm j (by omega)]
    split
    · obtain ⟨r, k', h1, h2, h3, h4⟩ := ih x (k + 4) (by omega)
        (fun y hy => hs y (List.mem_cons_of_mem _ hy)) (fun y hy => hn y (List.mem_cons_of_mem _ hy))
      refine ⟨r, k', h1, by omega, List.mem_cons_of_mem _ h3, fun y hy => ?_⟩
      have hx' := h4 x List.mem_cons_self
      rcases List.mem_cons.1 hy with rfl | hy
      · omega
      · exact h4 y hy
    · have hsub : ∀ y ∈ m :: xs, y ∈ m :: x :: xs := fun y hy => by
        rcases List.mem_cons.1 hy with rfl | hy
        · exact List.mem_cons_self
        · exact List.mem_cons_of_mem _ (List.mem_cons_of_mem _ hy)
      obtain ⟨r, k', h1, h2, h3, h4⟩ := ih m (k + 4) (by omega)
        (fun y hy => hs y (hsub y hy)) (fun y hy => hn y (hsub y hy))
      refine ⟨r, k', h1, by omega, hsub r h3, fun y hy => ?_⟩
      have hm' := h4 m List.mem_cons_self
      rcases List.mem_cons.1 hy with rfl | hy
      · exact hm'
      · rcases List.mem_cons.1 hy with rfl | hy'
        · omega
        · exact h4 y (List.mem_cons_of_mem _ hy')

/-- what the comparison of times finds out -/
theorem lookStale_grow (tf : TimeFmt) (p : Process) (e : QEnv) (k0 k : Nat) (hk : k0 ≤ k)
    (h : InputsGrow e k0 p) (o : Str) (os : List Str) (i : Str) (is : List Str)
    (ho : p.output = o :: os) (hi : p.input = i :: is) :
    ∃ r k', lookStale tf o os i is e k = (.ok r, k') ∧
      (r.invalidated = true → ∃ o ∈ p.output, ∃ i ∈ p.input, e.time k' o ≤ e.time k' i) ∧
      (r.invalidated = false → ∀ o ∈ p.output, ∀ i ∈ p.input, e.time k0 i < e.time k0 o) := by
  obtain ⟨m, k1, m1, m2, m3, m4⟩ := lookMin_same os o k hk (ho ▸ h.outThere) (ho ▸ h.outSame)
  have hm : m ∈ p.output := ho ▸ m3
  obtain ⟨l, k2, l1, l2, l3, l4⟩ := lookMax_newer is i (k1 + 1) (by omega) (hi ▸ h.inThere)
    (hi ▸ h.inNewer)
  have hl : l ∈ p.input := hi ▸ l3
  have hrun : ∃ log, lookStale tf o os i is e k =
      (.ok ⟨decide (e.time (k2 + 1) m ≤ e.time (k2 + 2 + 1) l), log⟩, k2 + 4) := by
    unfold lookStale
    rw [Look.bind_ok m1, Look.bind_ok (stays_exists ((h.outThere m hm).from (by omega)))]
    simp only [if_true]
    rw [Look.bind_ok l1, Look.bind_ok (stays_time ((h.outThere m hm).from (by omega))),
      Look.bind_ok (stays_time ((h.inThere l hl).from (by omega)))]
    exact ⟨_, rfl⟩
  obtain ⟨log, hrun⟩ := hrun
  have tl : ∀ {a b : Nat}, k0 ≤ a → a ≤ b → e.time a l ≤ e.time b l := time_mono (h.inNewer l hl)
  have tm := h.outSame m hm (k2 + 1) (by omega)
  refine ⟨_, _, hrun, fun hr => ?_, fun hr o' ho' i' hi' => ?_⟩
  · have hr := of_decide_eq_true hr
    refine ⟨m, hm, l, hl, ?_⟩
    have := h.outSame m hm (k2 + 4) (by omega)
    have := tl (a := k2 + 2 + 1) (b := k2 + 4) (by omega) (by omega)
    omega
  · have hr := of_decide_eq_false hr
    have := m4 o' (ho ▸ ho')
    have := l4 i' (hi ▸ hi')
    have := time_mono (h.inNewer i' hi') (Nat.le_refl k0) (show k0 ≤ k1 + 1 by omega)
    have := tl (a := k2) (b := k2 + 2 + 1) (by omega) (by omega)
    omega

/-- what the retcode file says at query `k` and the next -/
def RecordsFailure (e : QEnv) (k : Nat) (p : Process) : Prop :=
  ∃ f, p.retcodeFile = some f ∧ (e.files k f = .ok none ∨
    ∃ file, e.files (k + 1) f = .ok (some file) ∧ readInt file.content ≠ 0)

/-- the outcome of looking at the retcode file -/
theorem lookRetcode_cases (p : Process) (e : QEnv) (k : Nat) :
    (∃ r k', lookRetcode p e k = (.ok (some r), k') ∧ r.invalidated = true ∧ RecordsFailure e k p) ∨
    (∃ k', k ≤ k' ∧ lookRetcode p e k = (.ok none, k')) ∨
    ∃ w k' f, lookRetcode p e k = (.error w, k') ∧ p.retcodeFile = some f ∧ e.files k f = .error w := by
  unfold lookRetcode RecordsFailure
  cases hr : p.retcodeFile with
  | none => exact .inr (.inl ⟨k, Nat.le_refl k, rfl⟩)
  | some f =>
    dsimp only
    cases hf : e.files k f with
    | error w =>
      refine .inr (.inr ⟨w, k + 1, f, ?_, rfl, hf⟩)
      unfold Look.bind lookExists
      rw [hf]
    | ok o =>
      have he : lookExists f e k = (.ok o.isSome, k + 1) := by unfold lookExists; rw [hf]
      rw [Look.bind_ok he]
      cases o with
      | none => exact .inl ⟨_, k + 1, rfl, rfl, f, rfl, .inl hf⟩
      | some file =>
        simp only [Option.isSome_some, if_true]
        cases hg : lookInt f e (k + 1) with
        | mk x k2 =>
          have hk : k2 = k + 1 + 1 := congrArg Prod.snd hg.symm
          subst hk
          cases x with
          | error w =>
            exfalso
            have := congrArg Prod.fst hg
            unfold lookInt at this
            dsimp only at this
            split at this <;> cases this
          | ok v =>
            rw [Look.bind_ok hg]
            by_cases hv : v = 0
            · exact .inr (.inl ⟨k + 1 + 1, by omega, by simp only [hv]; rfl⟩)
            · refine .inl ⟨_, k + 1 + 1, by unfold Look.pure; rw [if_pos hv], rfl, f, rfl, .inr ?_⟩
              have := congrArg Prod.fst hg
              unfold lookInt at this
              dsimp only at this
              split at this
              · rename_i g hg'
                split at this
                · cases this; exact ⟨g, hg', hv⟩
                · cases this; exact absurd rfl hv
              · cases this; exact absurd rfl hv

/-- the whole question while only inputs change -/
theorem ask_grow (tf : TimeFmt) (p : Process) (e : QEnv) (k : Nat) (h : InputsGrow e k p)
    (ho : p.output ≠ []) (hi : p.input ≠ []) :
    (∃ r k', p.ask tf e k = (.ok r, k') ∧
      (r.invalidated = true → RecordsFailure e k p ∨
        ∃ o ∈ p.output, ∃ i ∈ p.input, e.time k' o ≤ e.time k' i) ∧
      (r.invalidated = false → ∀ o ∈ p.output, ∀ i ∈ p.input, e.time k i < e.time k o)) ∨
    ∃ w k' f, p.ask tf e k = (.error w, k') ∧ p.retcodeFile = some f ∧ e.files k f = .error w := by
  unfold Process.ask
  rcases lookRetcode_cases p e k with ⟨r, k', h1, h2, h3⟩ | ⟨k', hk, h1⟩ | ⟨w, k', f, h1, h2, h3⟩
  · left
    rw [Look.bind_ok h1]
    exact ⟨r, k', rfl, fun _ => .inl h3, fun h => by rw [h2] at h; cases h⟩
  · left
    rw [Look.bind_ok h1]
    dsimp only
    cases eo : p.output with
    | nil => exact absurd eo ho
    | cons o os =>
      cases ei : p.input with
      | nil => exact absurd ei hi
      | cons i is =>
        obtain ⟨r, k2, g1, g2, g3⟩ := lookStale_grow tf p e k k' hk h o os i is eo ei
        rw [eo, ei] at g2 g3
        exact ⟨r, k2, g1, fun hr => .inr (g2 hr), g3⟩
  · right
    refine ⟨w, k', f, ?_, h2, h3⟩
    unfold Look.bind
    rw [h1]

/-- **C71**: while nobody else writes the outputs and inputs only get newer, the answer "up to date"
was right when the question was asked. -/
theorem C71_no_was_right (tf : TimeFmt) (p : Process) (e : QEnv) (k : Nat) (h : InputsGrow e k p)
    (ho : p.output ≠ []) (hi : p.input ≠ []) (r : InvalResult)
    (hr : p.askOut tf e k = .answer r) (hno : r.invalidated = false) :
    ∀ o ∈ p.output, ∀ i ∈ p.input, e.time k i < e.time k o := by
  unfold Process.askOut at hr
  rcases ask_grow tf p e k h ho hi with ⟨r', k', h1, _, h3⟩ | ⟨w, k', f, h1, _, _⟩
  · rw [h1] at hr; cases hr; exact h3 hno
  · rw [h1] at hr; cases hr

/-- **C71**: under the same assumption the answer "out of date" is right when it is given: the retcode
file was missing or recorded a failure, or some output is not newer than some input. -/
theorem C71_yes_is_right (tf : TimeFmt) (p : Process) (e : QEnv) (k : Nat) (h : InputsGrow e k p)
    (ho : p.output ≠ []) (hi : p.input ≠ []) (r : InvalResult)
    (hr : p.askOut tf e k = .answer r) (hyes : r.invalidated = true) :
    RecordsFailure e k p ∨ ∃ o ∈ p.output, ∃ i ∈ p.input,
      e.time (p.ask tf e k).2 o ≤ e.time (p.ask tf e k).2 i := by
  unfold Process.askOut at hr
  rcases ask_grow tf p e k h ho hi with ⟨r', k', h1, h2, _⟩ | ⟨w, k', f, h1, _, _⟩
  · rw [h1] at hr ⊢; cases hr; exact h2 hyes
  · rw [h1] at hr; cases hr

/-- **C71**: ... and nothing but a failing query about the retcode file makes it throw. -/
theorem C71_grow_throws (tf : TimeFmt) (p : Process) (e : QEnv) (k : Nat) (h : InputsGrow e k p)
    (ho : p.output ≠ []) (hi : p.input ≠ []) (w : Str) (hr : p.askOut tf e k = .throws w) :
    ∃ f, p.retcodeFile = some f ∧ e.files k f = .error w := by
  unfold Process.askOut at hr
  rcases ask_grow tf p e k h ho hi with ⟨r', k', h1, _, _⟩ | ⟨w', k', f, h1, h2, h3⟩
  · rw [h1] at hr; cases hr
  · rw [h1] at hr; cases hr; exact ⟨f, h2, h3⟩

/-- **C71**: an execution of processes ends with a complete record unless the declared order has a
cycle or a query was disturbed. -/
theorem C71_execution (E : BEnv) (ts : TaskSet) (univ visit : List TaskId)
    (order : List TaskId → List TaskId) (filter : Str) (s : BSt)
    (h : Run E ts univ visit order filter s) (tc : Nat)
    (hj : JobsOk E.store (Selected E.store ts filter)) (σ : Nat → Move)
    (hF : Fair (execCfg E.store s.dag tc) σ) (tf : TimeFmt) (e : QEnv) (P : TaskId → Process)
    (k : TaskId → Nat) (out : TaskId → JobOut)
    (hP : ∀ t, Selected E.store ts filter t →
      (E.store t).job = some (.custom ((P t).askOut tf e (k t)) (out t))) :
    ∃ i, (OrderCycle E.store (Selected E.store ts filter) ∧
        (runSched (execCfg E.store s.dag tc) σ i).resultOut = some (.throws .cycle)) ∨
      (∃ t w, Selected E.store ts filter t ∧
        Disturbed e (k t) ((P t).ask tf e (k t)).2 (P t).files w ∧
        (runSched (execCfg E.store s.dag tc) σ i).resultOut = some (.throws (.inval w))) ∨
      ∃ rec, (runSched (execCfg E.store s.dag tc) σ i).resultOut = some (.ret (some rec)) ∧
        ∀ t, t ∈ rec.runs.map RunRecord.t ↔ Selected E.store ts filter t := by
  obtain ⟨i, _, _, h3⟩ := C70_run E ts univ visit order filter s h tc hj σ hF
  refine ⟨i, ?_⟩
  rcases h3 with h3 | ⟨_, t, j, w, ht, h4, h5, h6⟩ | ⟨_, _, rec, h4, _, h5, _⟩
  · exact .inl h3
  · refine .inr (.inl ⟨t, w, ht, C71_throws tf (P t) e (k t) w ?_, h6⟩)
    rw [hP t ht] at h4
    cases h4
    exact h5
  · exact .inr (.inr ⟨rec, h4, h5⟩)

namespace Ex

/-- outputs `a` and `b`, input `i` -/
def abi : Process :=
  { cmd := [['x']], input := [['i']], output := [['a'], ['b']], retcodeFile := none }

/-- an environment given by times -/
def timesEnv (t : Nat → Str → Option Int) : QEnv :=
  { files := fun k p => .ok ((t k p).map fun x => ⟨x, ['1']⟩)
    readable := fun _ _ => false
    gone := fun p => "gone: ".toList ++ p
    leftFirst := fun k => k % 2 = 0 }

end Ex

/-- nothing changes -/
example : (Ex.abi.askOut (fun _ => []) (Ex.timesEnv fun _ p => if p = ['i'] then some (-9) else some (-5))
    0).flag = some false := by decide +kernel

/-- **C71**: without that assumption the answer can be wrong from beginning to end: the input is always
newer than output `b`, but `a`, older still when they are compared, is rewritten before its time is
read again. -/
theorem C71_rewritten_counterexample :
    let e := Ex.timesEnv fun k p =>
      if p = ['i'] then some (-5) else if p = ['b'] then some (-6)
      else if k < 5 then some (-7) else some (-1)
    (Ex.abi.askOut (fun _ => []) e 0).flag = some false ∧ ∀ k, e.time k ['b'] ≤ e.time k ['i'] := by
  refine ⟨by decide +kernel, fun k => ?_⟩
  show (-6 : Int) ≤ -5
  decide

/-- **C71**: "up to date" need not hold any more when it is given: input `j` changes after it was
looked at. -/
theorem C71_late_counterexample :
    let p : Process := { Ex.abi with input := [['i'], ['j']] }
    let e := Ex.timesEnv fun k p =>
      if p = ['i'] then some (-8) else if p = ['j'] then (if k < 9 then some (-9) else some (-1))
      else some (-5)
    (p.askOut (fun _ => []) e 0).flag = some false ∧
    ∃ k, k < (p.ask (fun _ => []) e 0).2 ∧ e.time k ['a'] < e.time k ['j'] := by
  exact ⟨by decide +kernel, 9, by decide +kernel⟩

/-- **C71**: a retcode file that cannot be read counts as success. -/
theorem C71_unreadable_counterexample :
    let p : Process := { Ex.abi with retcodeFile := some ['r'] }
    let e := Ex.timesEnv fun _ q => if q = ['i'] then some (-9) else some (-5)
    (p.askOut (fun _ => []) e 0).flag = some false ∧ RecordsFailure e 0 p := by
  exact ⟨by decide +kernel, ['r'], rfl, .inr ⟨⟨-5, ['1']⟩, rfl, by decide +kernel⟩⟩

/-- a file that disappears between `exists` and `last_write_time` -/
example : Ex.abi.askOut (fun _ => []) (Ex.timesEnv fun k _ => if k = 1 then none else some (-5)) 0 =
    .throws "gone: b".toList := by decide +kernel

/-- an input touched meanwhile -/
example :
    let e := Ex.timesEnv fun k p => if p = ['i'] then some ((k : Int) - 20) else some (-15)
    InputsGrow e 0 Ex.abi ∧ (Ex.abi.askOut (fun _ => []) e 0).flag = some true := by
  refine ⟨⟨fun o _ j _ => ?_, fun i _ j _ => ?_, fun o ho j _ => ?_, fun i hi j _ => ?_⟩,
    by decide +kernel⟩
  · by_cases h : o = ['i'] <;> exact ⟨_, by simp only [Ex.timesEnv, h, if_true, if_false]; rfl⟩
  · by_cases h : i = ['i'] <;> exact ⟨_, by simp only [Ex.timesEnv, h, if_true, if_false]; rfl⟩
  · rcases List.mem_cons.1 ho with rfl | ho
    · rfl
    · rw [List.mem_singleton.1 ho]; rfl
  · rw [List.mem_singleton.1 hi]
    show (j : Int) - 20 ≤ ((j + 1 : Nat) : Int) - 20
    omega

end Joque
