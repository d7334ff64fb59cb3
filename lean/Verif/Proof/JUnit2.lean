import Verif.Proof.JUnit

/-! # What a name becomes in the report -/

namespace Joque

abbrev XFrame := Str × List (Str × Str) × List Xml

/-- inside an opening tag: its name and the attributes read so far -/
def XMode.inside : XMode → Option (Str × List (Str × Str))
  | .inTag n as | .key n as _ | .eq n as _ | .val n as _ _ | .ent n as _ _ _ | .afterVal n as
  | .slash n as => some (n, as)
  | _ => none

/-- what one character can do -/
inductive XShape (s s' : XSt) : Prop where
  | mode (h1 : s'.stack = s.stack) (h2 : s'.roots = s.roots)
      (h3 : ∀ n as, s.mode.inside = some (n, as) → ∃ bs, s'.mode.inside = some (n, as ++ bs))
  | push (n : Str) (as : List (Str × Str)) (h1 : s'.stack = (n, as, []) :: s.stack)
      (h2 : s'.roots = s.roots) (h3 : ∀ q, s.mode.inside = some q → q = (n, as))
  | empty (n : Str) (as : List (Str × Str)) (h1 : s' = s.add (.elem n as []))
      (h3 : s.mode.inside = some (n, as))
  | pop (m : Str) (a : List (Str × Str)) (ch : List Xml) (rest : List XFrame)
      (h1 : s.stack = (m, a, ch) :: rest) (h2 : s' = XSt.add { s with stack := rest } (.elem m a ch))
      (h3 : s.mode.inside = none)

theorem xstep_shape {s s' : XSt} {c : Char} (h : xstep s c = some s') : XShape s s' := by
  have keep : ∀ m : XMode, (∀ n as, s.mode.inside = some (n, as) →
      ∃ bs, m.inside = some (n, as ++ bs)) → XShape s { s with mode := m } :=
    fun m hm => .mode rfl rfl hm
  unfold xstep at h
  obtain ⟨st, rt, md⟩ := s
  cases md with
  | text =>
    have k : ∀ n as, XMode.text.inside = some (n, as) → ∃ bs, (none : Option (Str × List (Str × Str))) = some (n, as ++ bs) := by
      intro n as h; cases h
    dsimp only at h
    split at h
    · cases h; exact keep _ k
    · split at h
      · split at h
        · cases h; exact .mode rfl rfl k
        · cases h
      · split at h
        · cases h
        · cases h; exact .mode rfl rfl k
  | lt =>
    have k : ∀ n as, XMode.lt.inside = some (n, as) → ∃ bs, (none : Option (Str × List (Str × Str))) = some (n, as ++ bs) := by
      intro n as h; cases h
    dsimp only at h
    split at h
    · cases h; exact keep _ k
    · split at h
      · split at h
        · cases h; exact keep _ k
        · cases h
      · split at h
        · cases h; exact keep _ k
        · cases h
  | decl =>
    have k : ∀ n as, XMode.decl.inside = some (n, as) → ∃ bs, (none : Option (Str × List (Str × Str))) = some (n, as ++ bs) := by
      intro n as h; cases h
    dsimp only at h
    split at h
    · cases h; exact keep _ k
    · cases h; exact .mode rfl rfl k
  | close m =>
    dsimp only at h
    split at h
    · split at h
      · split at h
        · cases h; exact .pop _ _ _ _ rfl rfl rfl
        · cases h
      · cases h
    · split at h
      · cases h; exact keep _ (by intro n as h; cases h)
      · cases h
  | tag m =>
    have k : ∀ n as, (XMode.tag m).inside = some (n, as) → ∃ bs, (none : Option (Str × List (Str × Str))) = some (n, as ++ bs) := by
      intro n as h; cases h
    dsimp only at h
    split at h
    · cases h; exact keep _ (by intro n as h; cases h)
    · split at h
      · cases h; exact .push m [] rfl rfl (by intro q h; cases h)
      · split at h
        · cases h; exact keep _ (by intro n as h; cases h)
        · split at h
          · cases h; exact keep _ k
          · cases h
  | inTag m as0 =>
    have k : ∀ n as, (XMode.inTag m as0).inside = some (n, as) → ∃ bs, some (m, as0) = some (n, as ++ bs) := by
      intro n as h; cases h; exact ⟨[], by rw [List.append_nil]⟩
    dsimp only at h
    split at h
    · cases h; exact .mode rfl rfl k
    · split at h
      · cases h; exact .push m as0 rfl rfl (by intro q h; cases h; rfl)
      · split at h
        · cases h; exact keep _ k
        · split at h
          · cases h; exact keep _ k
          · cases h
  | key m as0 kk =>
    have k : ∀ n as, (XMode.key m as0 kk).inside = some (n, as) → ∃ bs, some (m, as0) = some (n, as ++ bs) := by
      intro n as h; cases h; exact ⟨[], by rw [List.append_nil]⟩
    dsimp only at h
    split at h
    · cases h; exact keep _ k
    · split at h
      · cases h; exact keep _ k
      · cases h
  | eq m as0 kk =>
    have k : ∀ n as, (XMode.eq m as0 kk).inside = some (n, as) → ∃ bs, some (m, as0) = some (n, as ++ bs) := by
      intro n as h; cases h; exact ⟨[], by rw [List.append_nil]⟩
    dsimp only at h
    split at h
    · cases h; exact keep _ k
    · cases h
  | val m as0 kk v =>
    have k : ∀ n as, (XMode.val m as0 kk v).inside = some (n, as) → ∃ bs, some (m, as0) = some (n, as ++ bs) := by
      intro n as h; cases h; exact ⟨[], by rw [List.append_nil]⟩
    dsimp only at h
    split at h
    · split at h
      · cases h
      · cases h
        exact keep _ (by intro n as h; cases h; exact ⟨_, rfl⟩)
    · split at h
      · cases h
      · split at h
        · cases h; exact keep _ k
        · split at h
          · cases h; exact keep _ k
          · split at h
            · cases h
            · cases h; exact keep _ k
  | ent m as0 kk v e =>
    have k : ∀ n as, (XMode.ent m as0 kk v e).inside = some (n, as) → ∃ bs, some (m, as0) = some (n, as ++ bs) := by
      intro n as h; cases h; exact ⟨[], by rw [List.append_nil]⟩
    dsimp only at h
    split at h
    · cases he : entity e with
      | none => rw [he] at h; cases h
      | some ch => rw [he] at h; cases h; exact keep _ k
    · cases h; exact keep _ k
  | afterVal m as0 =>
    have k : ∀ n as, (XMode.afterVal m as0).inside = some (n, as) → ∃ bs, some (m, as0) = some (n, as ++ bs) := by
      intro n as h; cases h; exact ⟨[], by rw [List.append_nil]⟩
    dsimp only at h
    split at h
    · cases h; exact keep _ k
    · split at h
      · cases h; exact .push m as0 rfl rfl (by intro q h; cases h; rfl)
      · split at h
        · cases h; exact keep _ k
        · cases h
  | slash m as0 =>
    dsimp only at h
    split at h
    · cases h; exact .empty m as0 rfl rfl
    · cases h

/-- adding an element above a frame only extends the children of the frame -/
theorem add_above (s : XSt) (x : Xml) (F : List XFrame) (n : Str) (as : List (Str × Str))
    (ch : List Xml) (R : List XFrame) (h : s.stack = F ++ (n, as, ch) :: R) :
    ∃ F' e, (s.add x).stack = F' ++ (n, as, ch ++ e) :: R ∧ (s.add x).roots = s.roots := by
  unfold XSt.add
  cases F with
  | nil => rw [h]; exact ⟨[], [x], rfl, rfl⟩
  | cons f F =>
    obtain ⟨n1, a1, c1⟩ := f
    rw [h]; exact ⟨(n1, a1, c1 ++ [x]) :: F, [], by rw [List.append_nil]; rfl, rfl⟩

/-- the document element is, or will be, one called `n` with `a` as its first attribute -/
inductive RootIs (n : Str) (a : Str × Str) (s : XSt) : Prop where
  | tag (as : List (Str × Str)) (h1 : s.stack = []) (h2 : s.roots = [])
      (h3 : s.mode.inside = some (n, a :: as))
  | opened (F : List XFrame) (as : List (Str × Str)) (ch : List Xml)
      (h1 : s.stack = F ++ [(n, a :: as, ch)]) (h2 : s.roots = [])
  | closed (as : List (Str × Str)) (ch more : List Xml) (h2 : s.roots = .elem n (a :: as) ch :: more)

theorem roots_add (s : XSt) (x y : Xml) (more : List Xml) (h : s.roots = y :: more) :
    ∃ more', (s.add x).roots = y :: more' := by
  unfold XSt.add
  split
  · exact ⟨more, h⟩
  · exact ⟨more ++ [x], by rw [h]; rfl⟩

theorem rootIs_step {n : Str} {a : Str × Str} {s s' : XSt} {c : Char} (h : RootIs n a s)
    (hs : xstep s c = some s') : RootIs n a s' := by
  cases xstep_shape hs with
  | mode e1 e2 e3 =>
    cases h with
    | tag as h1 h2 h3 =>
      obtain ⟨bs, hb⟩ := e3 _ _ h3
      exact .tag (as ++ bs) (by rw [e1, h1]) (by rw [e2, h2]) hb
    | opened F as ch h1 h2 => exact .opened F as ch (by rw [e1, h1]) (by rw [e2, h2])
    | closed as ch more h2 => exact .closed as ch more (by rw [e2, h2])
  | push m bs e1 e2 e3 =>
    cases h with
    | tag as h1 h2 h3 =>
      cases e3 _ h3
      exact .opened [] as [] (by rw [e1, h1]; rfl) (by rw [e2, h2])
    | opened F as ch h1 h2 =>
      exact .opened ((m, bs, []) :: F) as ch (by rw [e1, h1]; rfl) (by rw [e2, h2])
    | closed as ch more h2 => exact .closed as ch more (by rw [e2, h2])
  | empty m bs e1 e3 =>
    subst e1
    cases h with
    | tag as h1 h2 h3 =>
      rw [h3] at e3; cases e3
      refine .closed as [] [] ?_
      unfold XSt.add
      rw [h1, h2]; rfl
    | opened F as ch h1 h2 =>
      obtain ⟨F', e, h3, h4⟩ := add_above s (.elem m bs []) F _ _ ch [] h1
      exact .opened F' as _ h3 (by rw [h4, h2])
    | closed as ch more h2 =>
      obtain ⟨more', h3⟩ := roots_add s (.elem m bs []) _ _ h2
      exact .closed as ch more' h3
  | pop m b ch0 rest e1 e2 e3 =>
    subst e2
    cases h with
    | tag as h1 h2 h3 => rw [h1] at e1; cases e1
    | opened F as ch h1 h2 =>
      rw [h1] at e1
      cases F with
      | nil =>
        cases e1
        refine .closed as ch0 [] ?_
        unfold XSt.add
        dsimp only
        rw [h2]; rfl
      | cons f F =>
        cases e1
        obtain ⟨F', e, h3, h4⟩ := add_above { s with stack := F ++ [(n, a :: as, ch)] }
          (.elem m b ch0) F _ _ ch [] rfl
        exact .opened F' as _ h3 (Eq.trans h4 h2)
    | closed as ch more h2 =>
      obtain ⟨more', h3⟩ := roots_add { s with stack := rest } (.elem m b ch0) _ _ h2
      exact .closed as ch more' h3

/-- the document element `(m, A)` has, or will have, after the children `ch` one called `n` with `a`
as its first attribute -/
inductive KidIs (m : Str) (A : List (Str × Str)) (ch : List Xml) (n : Str) (a : Str × Str)
    (s : XSt) : Prop where
  | tag (as : List (Str × Str)) (h1 : s.stack = [(m, A, ch)]) (h2 : s.roots = [])
      (h3 : s.mode.inside = some (n, a :: as))
  | opened (F : List XFrame) (as : List (Str × Str)) (k : List Xml)
      (h1 : s.stack = F ++ [(n, a :: as, k), (m, A, ch)]) (h2 : s.roots = [])
  | added (F : List XFrame) (as : List (Str × Str)) (k more : List Xml)
      (h1 : s.stack = F ++ [(m, A, ch ++ .elem n (a :: as) k :: more)]) (h2 : s.roots = [])
  | closed (as : List (Str × Str)) (k more roots : List Xml)
      (h2 : s.roots = .elem m A (ch ++ .elem n (a :: as) k :: more) :: roots)

theorem kidIs_step {m : Str} {A : List (Str × Str)} {ch : List Xml} {n : Str} {a : Str × Str}
    {s s' : XSt} {c : Char} (h : KidIs m A ch n a s) (hs : xstep s c = some s') :
    KidIs m A ch n a s' := by
  have assoc : ∀ (x : Xml) (more e : List Xml), ch ++ x :: more ++ e = ch ++ x :: (more ++ e) := by
    intro x more e; simp
  cases xstep_shape hs with
  | mode e1 e2 e3 =>
    cases h with
    | tag as h1 h2 h3 =>
      obtain ⟨bs, hb⟩ := e3 _ _ h3
      exact .tag (as ++ bs) (by rw [e1, h1]) (by rw [e2, h2]) hb
    | opened F as k h1 h2 => exact .opened F as k (by rw [e1, h1]) (by rw [e2, h2])
    | added F as k more h1 h2 => exact .added F as k more (by rw [e1, h1]) (by rw [e2, h2])
    | closed as k more roots h2 => exact .closed as k more roots (by rw [e2, h2])
  | push p bs e1 e2 e3 =>
    cases h with
    | tag as h1 h2 h3 =>
      cases e3 _ h3
      exact .opened [] as [] (by rw [e1, h1]; rfl) (by rw [e2, h2])
    | opened F as k h1 h2 =>
      exact .opened ((p, bs, []) :: F) as k (by rw [e1, h1]; rfl) (by rw [e2, h2])
    | added F as k more h1 h2 =>
      exact .added ((p, bs, []) :: F) as k more (by rw [e1, h1]; rfl) (by rw [e2, h2])
    | closed as k more roots h2 => exact .closed as k more roots (by rw [e2, h2])
  | empty p bs e1 e3 =>
    subst e1
    cases h with
    | tag as h1 h2 h3 =>
      rw [h3] at e3; cases e3
      refine .added [] as [] [] ?_ ?_ <;>
      · unfold XSt.add
        rw [h1]
        first | rfl | exact h2
    | opened F as k h1 h2 =>
      obtain ⟨F', e, h3, h4⟩ := add_above s (.elem p bs []) F _ _ k [(m, A, ch)] h1
      exact .opened F' as _ h3 (by rw [h4, h2])
    | added F as k more h1 h2 =>
      obtain ⟨F', e, h3, h4⟩ := add_above s (.elem p bs []) F _ _ _ [] h1
      exact .added F' as k (more ++ e) (by rw [h3, assoc]) (by rw [h4, h2])
    | closed as k more roots h2 =>
      obtain ⟨roots', h3⟩ := roots_add s (.elem p bs []) _ _ h2
      exact .closed as k more roots' h3
  | pop p b ch0 rest e1 e2 e3 =>
    subst e2
    cases h with
    | tag as h1 h2 h3 => rw [h3] at e3; cases e3
    | opened F as k h1 h2 =>
      rw [h1] at e1
      cases F with
      | nil =>
        cases e1
        exact .added [] as _ [] rfl h2
      | cons f F =>
        cases e1
        obtain ⟨F', e, h3, h4⟩ := add_above
          { s with stack := F ++ [(n, a :: as, k), (m, A, ch)] } (.elem p b ch0) F _ _ k
          [(m, A, ch)] rfl
        exact .opened F' as _ h3 (Eq.trans h4 h2)
    | added F as k more h1 h2 =>
      rw [h1] at e1
      cases F with
      | nil =>
        cases e1
        refine .closed as k more [] ?_
        unfold XSt.add
        dsimp only
        rw [h2]; rfl
      | cons f F =>
        cases e1
        obtain ⟨F', e, h3, h4⟩ := add_above
          { s with stack := F ++ [(m, A, ch ++ .elem n (a :: as) k :: more)] } (.elem p b ch0) F _ _ _
          [] rfl
        exact .added F' as k (more ++ e) (Eq.trans h3 (by rw [assoc])) (Eq.trans h4 h2)
    | closed as k more roots h2 =>
      obtain ⟨roots', h3⟩ := roots_add { s with stack := rest } (.elem p b ch0) _ _ h2
      exact .closed as k more roots' h3

theorem xrun_inv {P : XSt → Prop} (hP : ∀ s c s', P s → xstep s c = some s' → P s') :
    ∀ (l : Str) (s s' : XSt), P s → xrun s l = some s' → P s' := by
  intro l
  induction l with
  | nil => intro s s' h hr; cases hr; exact h
  | cons c l ih =>
    intro s s' h hr
    unfold xrun at hr
    cases hc : xstep s c with
    | none => rw [hc] at hr; cases hr
    | some t => rw [hc] at hr; exact ih t s' (hP s c t h hc) hr

/-- the end of `parseXml` -/
def xdone : Option XSt → Option Xml
  | some ⟨[], [x], .text⟩ => some x
  | _ => none

theorem parseXml_eq (d : Str) : parseXml d = xdone (xrun XSt.init d) := by
  unfold parseXml xdone; rfl

theorem xdone_some {o : Option XSt} {x : Xml} (h : xdone o = some x) :
    o = some ⟨[], [x], .text⟩ := by
  unfold xdone at h
  split at h
  · cases h; rfl
  · cases h

/-- a reference with a quote in it is never resolved -/
theorem xrun_badEnt (l : Str) (s : XSt) (x : Xml)
    (h : ∃ n as k v e, s.mode = .ent n as k v e ∧ '"' ∈ e) : xdone (xrun s l) ≠ some x := by
  intro hx
  have hr := xdone_some hx
  have := xrun_inv (P := fun s => ∃ n as k v e, s.mode = .ent n as k v e ∧ '"' ∈ e) ?_ l s _ h hr
  · obtain ⟨_, _, _, _, _, hm, _⟩ := this; cases hm
  · rintro s c s' ⟨n, as, k, v, e, hm, he⟩ hc
    unfold xstep at hc
    rw [hm] at hc
    dsimp only at hc
    split at hc
    · have : entity e = none := by
        unfold entity
        have ne : ∀ l : Str, '"' ∉ l → e ≠ l := by rintro l hl rfl; exact hl he
        rw [if_neg (ne _ (by decide)), if_neg (ne _ (by decide)), if_neg (ne _ (by decide)),
          if_neg (ne _ (by decide)), if_neg (ne _ (by decide))]
      rw [this] at hc; cases hc
    · cases hc; exact ⟨n, as, k, v, e ++ [c], rfl, List.mem_append_left _ he⟩

theorem xrun_ent (st : List XFrame) (rt : List Xml) (n : Str) (as : List (Str × Str)) (k v : Str) :
    ∀ (d e rest : Str), (∀ x, xdone (xrun ⟨st, rt, .ent n as k v e⟩ (d ++ '"' :: rest)) ≠ some x) ∨
      ∃ (ch : Char) (b : Str), b.length < d.length ∧
        xrun ⟨st, rt, .ent n as k v e⟩ (d ++ '"' :: rest) =
          xrun ⟨st, rt, .val n as k (v ++ [ch])⟩ (b ++ '"' :: rest) := by
  intro d
  induction d with
  | nil =>
    intro e rest
    left; intro x
    show xdone ((xstep ⟨st, rt, .ent n as k v e⟩ '"').bind _) ≠ some x
    have : xstep ⟨st, rt, .ent n as k v e⟩ '"' = some ⟨st, rt, .ent n as k v (e ++ ['"'])⟩ := rfl
    rw [this]
    exact xrun_badEnt _ _ _ ⟨_, _, _, _, _, rfl, by simp⟩
  | cons c d ih =>
    intro e rest
    have hx : xrun ⟨st, rt, .ent n as k v e⟩ (c :: d ++ '"' :: rest) =
      (xstep ⟨st, rt, .ent n as k v e⟩ c).bind fun s' => xrun s' (d ++ '"' :: rest) := rfl
    rw [hx]
    by_cases hc : c = ';'
    · subst hc
      have : xstep ⟨st, rt, .ent n as k v e⟩ ';' =
        (entity e).map fun ch => ⟨st, rt, .val n as k (v ++ [ch])⟩ := rfl
      rw [this]
      cases entity e with
      | none => left; intro x h; cases h
      | some ch => right; exact ⟨ch, d, Nat.lt_succ_self _, rfl⟩
    · have : xstep ⟨st, rt, .ent n as k v e⟩ c = some ⟨st, rt, .ent n as k v (e ++ [c])⟩ := by
        unfold xstep; dsimp only; rw [if_neg hc]
      rw [this, Option.bind_some]
      rcases ih (e ++ [c]) rest with h | ⟨ch, b, h1, h2⟩
      · exact .inl h
      · exact .inr ⟨ch, b, Nat.lt_succ_of_lt h1, h2⟩

/-- a quoted text is read as itself only if it is free of special characters -/
theorem xrun_quoted (st : List XFrame) (rt : List Xml) (n : Str) (as : List (Str × Str)) (k : Str) :
    ∀ (N : Nat) (d u rest : Str), d.length ≤ N →
      (∀ x, xdone (xrun ⟨st, rt, .val n as k u⟩ (d ++ '"' :: rest)) ≠ some x) ∨
      ∃ (v rest' : Str), xrun ⟨st, rt, .val n as k u⟩ (d ++ '"' :: rest) =
          xrun ⟨st, rt, .val n as k (u ++ v)⟩ ('"' :: rest') ∧
        v.length ≤ d.length ∧ (v = d → XmlClean d) := by
  intro N
  induction N with
  | zero =>
    intro d u rest hd
    have : d = [] := List.length_eq_zero_iff.1 (Nat.le_zero.1 hd)
    subst this
    right
    exact ⟨[], rest, by rw [List.append_nil]; rfl, Nat.le_refl _, fun _ c hc => by cases hc⟩
  | succ N ih =>
    intro d u rest hd
    cases d with
    | nil =>
      right
      exact ⟨[], rest, by rw [List.append_nil]; rfl, Nat.le_refl _, fun _ c hc => by cases hc⟩
    | cons c d =>
      have hd' : d.length ≤ N := Nat.le_of_succ_le_succ hd
      have hx : xrun ⟨st, rt, .val n as k u⟩ (c :: d ++ '"' :: rest) =
        (xstep ⟨st, rt, .val n as k u⟩ c).bind fun s' => xrun s' (d ++ '"' :: rest) := rfl
      by_cases h1 : c = '"'
      · subst h1
        right
        exact ⟨[], d ++ '"' :: rest, by rw [List.append_nil]; rfl, Nat.zero_le _,
          fun h => by cases h⟩
      by_cases h2 : c = '<'
      · left; intro x
        rw [hx, h2]
        have : xstep ⟨st, rt, .val n as k u⟩ '<' = none := rfl
        rw [this]; intro h; cases h
      by_cases h3 : c = '&'
      · subst h3
        have : xstep ⟨st, rt, .val n as k u⟩ '&' = some ⟨st, rt, .ent n as k u []⟩ := rfl
        rw [hx, this, Option.bind_some]
        rcases xrun_ent st rt n as k u d [] rest with h | ⟨ch, b, hb, he⟩
        · exact .inl h
        · rw [he]
          rcases ih b (u ++ [ch]) rest (by omega) with h | ⟨v, rest', e1, e2, _⟩
          · exact .inl h
          · right
            refine ⟨ch :: v, rest', by rw [e1, List.append_assoc]; rfl, ?_, ?_⟩
            · simp only [List.length_cons]; omega
            · intro h
              have := congrArg List.length h
              simp only [List.length_cons] at this
              omega
      by_cases h4 : xmlWs c = true
      · have : xstep ⟨st, rt, .val n as k u⟩ c = some ⟨st, rt, .val n as k (u ++ [' '])⟩ := by
          unfold xstep; dsimp only; rw [if_neg h1, if_neg h2, if_neg h3, if_pos h4]
        rw [hx, this, Option.bind_some]
        rcases ih d (u ++ [' ']) rest hd' with h | ⟨v, rest', e1, e2, e3⟩
        · exact .inl h
        · right
          refine ⟨' ' :: v, rest', by rw [e1, List.append_assoc]; rfl, Nat.succ_le_succ e2, ?_⟩
          intro h
          injection h with hc hv
          intro y hy
          rcases List.mem_cons.1 hy with rfl | hy
          · rw [← hc]; decide
          · exact e3 hv y hy
      · by_cases h5 : c.toNat < 32
        · left; intro x
          have : xstep ⟨st, rt, .val n as k u⟩ c = none := by
            unfold xstep; dsimp only; rw [if_neg h1, if_neg h2, if_neg h3, if_neg h4, if_pos h5]
          rw [hx, this]; intro h; cases h
        · have : xstep ⟨st, rt, .val n as k u⟩ c = some ⟨st, rt, .val n as k (u ++ [c])⟩ := by
            unfold xstep; dsimp only; rw [if_neg h1, if_neg h2, if_neg h3, if_neg h4, if_neg h5]
          rw [hx, this, Option.bind_some]
          rcases ih d (u ++ [c]) rest hd' with h | ⟨v, rest', e1, e2, e3⟩
          · exact .inl h
          · right
            refine ⟨c :: v, rest', by rw [e1, List.append_assoc]; rfl, Nat.succ_le_succ e2, ?_⟩
            intro h
            injection h with _ hv
            intro y hy
            rcases List.mem_cons.1 hy with rfl | hy
            · exact ⟨h1, h2, h3, by omega⟩
            · exact e3 hv y hy

end Joque
