import Verif.Props.Process

/-! # C55: which commands are shown alike -/

namespace Joque

/-- every argument ending in a backslash, but the last one, swallows the blank after it: the two
arguments are taken for one -/
def glue : List Str → List Str
  | [] => []
  | x :: xs =>
    match glue xs with
    | [] => [x]
    | y :: ys => if x.getLast? = some '\\' then (x.dropLast ++ ' ' :: y) :: ys else x :: y :: ys

/-- no argument but the last one ends in a backslash -/
def NoGlue : List Str → Prop
  | [] => True
  | [_] => True
  | x :: y :: ys => x.getLast? ≠ some '\\' ∧ NoGlue (y :: ys)

theorem glue_noGlue (a : List Str) : NoGlue (glue a) := by
  induction a with
  | nil => exact trivial
  | cons x xs ih =>
    unfold glue
    cases hg : glue xs with
    | nil => exact trivial
    | cons y ys =>
      rw [hg] at ih
      dsimp only
      split
      · cases ys with
        | nil => exact trivial
        | cons z zs =>
          refine ⟨?_, ih.2⟩
          intro h
          cases y with
          | nil => simp at h
          | cons c cs =>
            refine ih.1 ?_
            obtain ⟨d, hd⟩ : ∃ d, (c :: cs).getLast? = some d :=
              ⟨_, List.getLast?_eq_some_getLast (List.cons_ne_nil c cs)⟩
            have e : x.dropLast ++ ' ' :: c :: cs = (x.dropLast ++ [' ']) ++ (c :: cs) := by simp
            rw [e, List.getLast?_append, hd] at h
            rw [hd]; exact h
      · rename_i h; exact ⟨h, ih⟩

theorem glue_of_noGlue (a : List Str) (h : NoGlue a) : glue a = a := by
  induction a with
  | nil => rfl
  | cons x xs ih =>
    cases xs with
    | nil => rfl
    | cons y ys =>
      unfold glue
      rw [ih h.2]
      dsimp only
      rw [if_neg h.1]

theorem esc_append (x y : Str) :
    ((x ++ y).flatMap fun c => if c = ' ' then ['\\', ' '] else [c]) =
      (x.flatMap fun c => if c = ' ' then ['\\', ' '] else [c]) ++
        (y.flatMap fun c => if c = ' ' then ['\\', ' '] else [c]) := List.flatMap_append

theorem formatCmd_cons (x : Str) (xs : List Str) : formatCmd (x :: xs) =
    (x.flatMap fun c => if c = ' ' then ['\\', ' '] else [c]) ++ ' ' :: formatCmd xs := by
  unfold formatCmd
  rw [List.flatMap_cons]
  simp only [List.append_assoc, List.cons_append, List.nil_append]

theorem formatCmd_glue (a : List Str) : formatCmd (glue a) = formatCmd a := by
  induction a with
  | nil => rfl
  | cons x xs ih =>
    unfold glue
    rw [formatCmd_cons x xs, ← ih]
    cases hg : glue xs with
    | nil => exact formatCmd_cons x []
    | cons y ys =>
      dsimp only
      split
      · rename_i h
        obtain ⟨x', rfl⟩ : ∃ x', x = x' ++ ['\\'] := by
          rw [List.getLast?_eq_some_iff] at h; exact h
        rw [List.dropLast_concat, formatCmd_cons, formatCmd_cons, esc_append, esc_append]
        simp
      · rw [formatCmd_cons]

theorem esc_split (xs ys r s : Str) (hx : xs.getLast? ≠ some '\\' ∨ r = ['\n'])
    (hy : ys.getLast? ≠ some '\\' ∨ s = ['\n'])
    (h : (xs.flatMap fun c => if c = ' ' then ['\\', ' '] else [c]) ++ ' ' :: r =
      (ys.flatMap fun c => if c = ' ' then ['\\', ' '] else [c]) ++ ' ' :: s) :
    xs = ys ∧ r = s := by
  have last : ∀ (c : Char) (zs : Str) (t : Str), (c :: zs).getLast? ≠ some '\\' ∨ t = ['\n'] →
      zs.getLast? ≠ some '\\' ∨ t = ['\n'] := by
    intro c zs t h
    rcases h with h | h
    · left
      cases zs with
      | nil => simp
      | cons d ds => rwa [List.getLast?_cons_cons] at h
    · exact .inr h
  -- a backslash on one side, an escaped blank on the other
  have clash : ∀ (zs r ws s : Str), (('\\' :: zs).getLast? ≠ some '\\' ∨ r = ['\n']) →
      (zs.flatMap fun c => if c = ' ' then ['\\', ' '] else [c]) ++ ' ' :: r =
        ' ' :: ((ws.flatMap fun c => if c = ' ' then ['\\', ' '] else [c]) ++ ' ' :: s) → False := by
    intro zs r ws s hz he
    cases zs with
    | nil =>
      rcases hz with hz | rfl
      · exact hz rfl
      · have : (['\n'] : Str) = (ws.flatMap fun c => if c = ' ' then ['\\', ' '] else [c]) ++ ' ' :: s :=
          (List.cons.inj he).2
        have hm : ' ' ∈ (['\n'] : Str) := by rw [this]; simp
        simp at hm
    | cons d ds =>
      rw [List.flatMap_cons] at he
      by_cases hd : d = ' '
      · rw [if_pos hd] at he
        have := (List.cons.inj he).1
        revert this; decide
      · rw [if_neg hd] at he
        exact hd (List.cons.inj he).1
  induction xs generalizing ys with
  | nil =>
    cases ys with
    | nil => exact ⟨rfl, (List.cons.inj h).2⟩
    | cons y ys =>
      exfalso
      rw [List.flatMap_cons] at h
      by_cases hc : y = ' '
      · rw [if_pos hc] at h
        have := (List.cons.inj h).1
        revert this; decide
      · rw [if_neg hc] at h
        exact hc (List.cons.inj h).1.symm
  | cons x xs ih =>
    cases ys with
    | nil =>
      exfalso
      rw [List.flatMap_cons] at h
      by_cases hc : x = ' '
      · rw [if_pos hc] at h
        have := (List.cons.inj h).1
        revert this; decide
      · rw [if_neg hc] at h
        exact hc (List.cons.inj h).1
    | cons y ys =>
      rw [List.flatMap_cons, List.flatMap_cons] at h
      by_cases hc : x = ' '
      · by_cases hd : y = ' '
        · rw [if_pos hc, if_pos hd] at h
          obtain ⟨h1, h2⟩ := ih ys (last _ _ _ hx) (last _ _ _ hy)
            (List.cons.inj (List.cons.inj h).2).2
          exact ⟨by rw [hc, hd, h1], h2⟩
        · rw [if_pos hc, if_neg hd] at h
          have hy' : y = '\\' := (List.cons.inj h).1.symm
          subst hy'
          exact (clash ys s xs r hy (List.cons.inj h).2.symm).elim
      · by_cases hd : y = ' '
        · rw [if_neg hc, if_pos hd] at h
          have hx' : x = '\\' := (List.cons.inj h).1
          subst hx'
          exact (clash xs r ys s hx (List.cons.inj h).2).elim
        · rw [if_neg hc, if_neg hd] at h
          obtain ⟨h1, h2⟩ := ih ys (last _ _ _ hx) (last _ _ _ hy) (List.cons.inj h).2
          exact ⟨by rw [(List.cons.inj h).1, h1], h2⟩

theorem formatCmd_ne (y : Str) (ys : List Str) : formatCmd (y :: ys) ≠ ['\n'] := by
  intro h
  rw [formatCmd_cons] at h
  have hm : ' ' ∈ (['\n'] : Str) := by rw [← h]; simp
  simp at hm

theorem formatCmd_inj (a b : List Str) (ha : NoGlue a) (hb : NoGlue b)
    (h : formatCmd a = formatCmd b) : a = b := by
  have side : ∀ (x : Str) (xs : List Str), NoGlue (x :: xs) →
      (x.getLast? ≠ some '\\' ∨ formatCmd xs = ['\n']) ∧ NoGlue xs := by
    intro x xs h
    cases xs with
    | nil => exact ⟨.inr rfl, trivial⟩
    | cons y ys => exact ⟨.inl h.1, h.2⟩
  induction a generalizing b with
  | nil =>
    cases b with
    | nil => rfl
    | cons y ys => exact absurd h.symm (formatCmd_ne y ys)
  | cons x xs ih =>
    cases b with
    | nil => exact absurd h (formatCmd_ne x xs)
    | cons y ys =>
      rw [formatCmd_cons, formatCmd_cons] at h
      obtain ⟨h1, h2⟩ := esc_split x y _ _ (side x xs ha).1 (side y ys hb).1 h
      rw [h1, ih ys (side x xs ha).2 (side y ys hb).2 h2]

/-- **C55**, exactly.  Two commands are shown alike if and only if they are the same after joining,
with a blank, each argument that ends in a backslash and the argument after it. -/
theorem C55_exact (a b : List Str) : formatCmd a = formatCmd b ↔ glue a = glue b := by
  constructor
  · intro h
    refine formatCmd_inj _ _ (glue_noGlue a) (glue_noGlue b) ?_
    rw [formatCmd_glue, formatCmd_glue, h]
  · intro h
    rw [← formatCmd_glue a, ← formatCmd_glue b, h]

/-- **C55**.  A command with no argument ending in a backslash, but possibly the last one, is told
from all other such commands. -/
theorem C55_distinct (a b : List Str) (ha : NoGlue a) (hb : NoGlue b)
    (h : formatCmd a = formatCmd b) : a = b := formatCmd_inj a b ha hb h

/-- **C55**.  A command is shown like some other command if and only if an argument contains a blank
or an argument other than the last one ends in a backslash. -/
theorem C55_ambiguous (a : List Str) :
    (∃ b, b ≠ a ∧ formatCmd b = formatCmd a) ↔ (∃ x ∈ a, ' ' ∈ x) ∨ ¬ NoGlue a := by
  constructor
  · rintro ⟨b, hne, h⟩
    by_cases hg : NoGlue a
    · left
      refine Classical.byContradiction fun hsp => ?_
      have hsp' : ∀ x ∈ a, ' ' ∉ x := fun x hx hc => hsp ⟨x, hx, hc⟩
      have e : glue b = a := by rw [(C55_exact b a).1 h, glue_of_noGlue a hg]
      refine hne ?_
      rw [← e, eq_comm]
      refine glue_of_noGlue b ?_
      rw [← e] at hsp'
      clear e h hne hg hsp
      induction b with
      | nil => exact trivial
      | cons x xs ih =>
        unfold glue at hsp'
        cases hxs : glue xs with
        | nil =>
          cases xs with
          | nil => exact trivial
          | cons y ys =>
            have := congrArg formatCmd hxs
            rw [formatCmd_glue] at this
            exact absurd this (formatCmd_ne y ys)
        | cons y ys =>
          rw [hxs] at hsp'
          dsimp only at hsp'
          split at hsp'
          · exact absurd (show ' ' ∈ x.dropLast ++ ' ' :: y by simp)
              (hsp' _ (List.mem_cons_self ..))
          · rename_i hl
            have hih := ih (by rw [hxs]; exact fun z hz => hsp' z (List.mem_cons_of_mem _ hz))
            cases xs with
            | nil => exact trivial
            | cons z zs => exact ⟨hl, hih⟩
    · exact .inr hg
  · rintro (⟨x, hx, hsp⟩ | hg)
    · obtain ⟨p, q, rfl⟩ := List.append_of_mem hx
      obtain ⟨u, v, rfl⟩ := List.append_of_mem hsp
      refine ⟨p ++ (u ++ ['\\']) :: v :: q, ?_, ?_⟩
      · intro h
        have := congrArg List.length h
        simp at this
      · have key : ∀ (p : List Str) (c d : List Str), formatCmd c = formatCmd d →
            formatCmd (p ++ c) = formatCmd (p ++ d) := by
          intro p c d h
          induction p with
          | nil => exact h
          | cons z zs ih => rw [List.cons_append, List.cons_append, formatCmd_cons, formatCmd_cons, ih]
        refine key p _ _ ?_
        rw [formatCmd_cons, formatCmd_cons, formatCmd_cons, esc_append, esc_append]
        simp
    · refine ⟨glue a, ?_, formatCmd_glue a⟩
      intro h
      exact hg (h ▸ glue_noGlue a)

example : glue [['a', '\\'], ['b', '\\'], ['c']] = [['a', ' ', 'b', ' ', 'c']] := by decide +kernel

example : formatCmd [['a', '\\'], ['b', '\\'], ['c']] = formatCmd [['a', ' ', 'b', ' ', 'c']] := by
  decide +kernel

end Joque
