import Verif.Proof.TraceInv3

/-! Consequences of the invariants for whole histories. -/

namespace Joque

theorem last_split {α : Type} {a b x : List α} {t : α} (h : a ++ b = x ++ [t]) (hx : t ∉ x)
    (ha : t ∈ a) : b = [] := by
  rcases List.eq_nil_or_concat b with rfl | ⟨b', y, rfl⟩
  · rfl
  · have h' : (a ++ b') ++ [y] = x ++ [t] := by rw [← h]; simp
    have := (List.append_inj' h' rfl).1
    exact absurd (by rw [← this]; simp [ha]) hx

theorem recLife_snoc (tc : Nat) (st : Status) :
    ∃ x, recLife tc st = x ++ [.after] ∧ Tag.after ∉ x ∧
      ((∃ b, Tag.begin b ∈ x) → Tag.end ∈ x) := by
  cases st <;> by_cases h : tc = 0 <;> simp [recLife, h]
  · exact ⟨[.before, .begin true, .end, .log], by simp⟩
  · exact ⟨[.before, .launch, .begin false, .end, .log], by simp⟩
  · exact ⟨[.before], by simp⟩
  · exact ⟨[.before], by simp⟩
  · exact ⟨[.before], by simp⟩
  · exact ⟨[.before], by simp⟩
  · exact ⟨[.before, .begin true, .end, .log], by simp⟩
  · exact ⟨[.before, .launch, .begin false, .end, .log], by simp⟩

theorem mem_recsOf {tr : List Event} {r : RunRecord} :
    r ∈ recsOf tr ↔ ∃ er n, Event.afterRun er r n ∈ tr := by
  constructor
  · intro h
    obtain ⟨e, he, hr⟩ := List.mem_filterMap.1 h
    split at hr
    · rename_i er r' n; simp at hr; subst hr; exact ⟨er, n, he⟩
    · cases hr
  · rintro ⟨er, n, h⟩
    exact List.mem_filterMap.2 ⟨_, h, rfl⟩

theorem after_mem_life {tr : List Event} {n : Node} :
    Recorded tr n ↔ Tag.after ∈ life n tr := by
  constructor
  · rintro ⟨r, hr, rfl⟩
    obtain ⟨er, m, h⟩ := mem_recsOf.1 hr
    exact List.mem_filterMap.2 ⟨_, h, by simp [tagOf]⟩
  · intro h
    obtain ⟨e, he, ht⟩ := List.mem_filterMap.1 h
    unfold tagOf at ht
    split at ht <;> (try split at ht) <;> simp at ht
    rename_i er r m hm
    exact ⟨r, mem_recsOf.2 ⟨er, m, he⟩, hm⟩

variable {C : Cfg} {s : St}

/-- After its record nothing happens to a node any more. -/
theorem rec_split (hT : TInv C s) {pre rest : List Event} (htr : s.trace = pre ++ rest) {n : Node}
    (hr : Recorded pre n) : life n rest = [] ∧ ∃ r ∈ s.erec.runs, r.node = n ∧
      life n pre = recLife C.threadCount r.status := by
  obtain ⟨r, hr1, rfl⟩ := hr
  have hr2 : r ∈ s.erec.runs := by
    rw [← hT.recs, htr, recsOf_append]; exact List.mem_append_left _ hr1
  have hl := hT.lifeRec r hr2
  rw [htr, life_append] at hl
  obtain ⟨x, hx1, hx2, _⟩ := recLife_snoc C.threadCount r.status
  have ha : Tag.after ∈ life r.node pre := after_mem_life.1 ⟨r, hr1, rfl⟩
  have hnil := last_split (by rw [hl, hx1]) hx2 ha
  refine ⟨hnil, r, hr2, rfl, ?_⟩
  rw [hnil, List.append_nil] at hl; exact hl

/-- All possible complete histories of one node. -/
theorem life_shape (hI : Inv C s) (hT : TInv C s) (n : Node) :
    life n s.trace <+: [.before, .after] ∨
    (C.threadCount ≠ 0 ∧ life n s.trace <+: [.before, .launch, .begin false, .end, .log, .after]) ∨
    (C.threadCount = 0 ∧ life n s.trace <+: [.before, .begin true, .end, .log, .after]) := by
  by_cases hn : n ∈ allNodes s
  · unfold allNodes at hn
    simp only [List.mem_append] at hn
    rcases hn with (hn | hn) | hn
    · obtain ⟨h, hm, rfl⟩ := List.mem_map.1 hn
      cases hl : h.launched
      · rcases hT.lifeFresh h hm hl with h1 | ⟨_, h1 | ⟨h0, h1 | h1⟩⟩
        · rw [h1]; exact .inl (List.nil_prefix)
        · rw [h1]; exact .inl (by decide)
        · rw [h1]; right; right; exact ⟨h0, by decide⟩
        · rw [h1]; right; right; exact ⟨h0, by decide⟩
      · have h1 := hT.lifeLaunched h hm hl
        by_cases h0 : C.threadCount = 0
        · exact absurd (hI.seq h0 h.node) (hI.launched h hm hl).2.1
        · right; left; refine ⟨h0, ?_⟩
          rcases h1 with h1 | ⟨_, _, h1⟩
          · rw [h1]; cases s.worker h.node <;> decide
          · rw [h1]; decide
    · obtain ⟨r, hr, rfl⟩ := List.mem_map.1 hn
      rw [hT.lifeRec r hr]
      by_cases h0 : C.threadCount = 0 <;> cases r.status <;> simp [recLife, h0]
    · rw [hT.lifeTp n hn]; exact .inl (List.nil_prefix)
  · rcases hT.lifeOther n hn with h1 | ⟨_, h1⟩ <;> rw [h1]
    · exact .inl List.nil_prefix
    · exact .inl (by decide)

theorem prefix_begin_once {l : List Tag} (h : l <+: [.before, .after] ∨
    l <+: [.before, .launch, .begin false, .end, .log, .after] ∨
    l <+: [.before, .begin true, .end, .log, .after]) {a b : List Tag} {x : Bool}
    (hl : l = a ++ .begin x :: b) : (∀ y, Tag.begin y ∉ a) ∧ (∀ y, Tag.begin y ∉ b) := by
  subst hl
  have key : ∀ full : List Tag, (full.filter (fun t => match t with | .begin _ => true | _ => false)).length ≤ 1 →
      a ++ .begin x :: b <+: full → (∀ y, Tag.begin y ∉ a) ∧ (∀ y, Tag.begin y ∉ b) := by
    rintro full hf ⟨t, rfl⟩
    simp only [List.filter_append, List.length_append, List.filter_cons, if_true,
      List.length_cons] at hf
    constructor
    · intro y hy
      have : 0 < (a.filter (fun t => match t with | .begin _ => true | _ => false)).length := by
        rw [List.length_pos_iff_exists_mem]; exact ⟨.begin y, by simp [hy]⟩
      omega
    · intro y hy
      have : 0 < (b.filter (fun t => match t with | .begin _ => true | _ => false)).length := by
        rw [List.length_pos_iff_exists_mem]; exact ⟨.begin y, by simp [hy]⟩
      omega
  rcases h with h | h | h
  · exact key _ (by decide) h
  · exact key _ (by decide) h
  · exact key _ (by decide) h

theorem begin_split (hI : Inv C s) (hT : TInv C s) {pre post : List Event} {n : Node} {x : Bool}
    (htr : s.trace = pre ++ .jobBegin n x :: post) : ¬ JobBegan pre n ∧ ¬ JobBegan post n := by
  have hl : life n s.trace = life n pre ++ .begin x :: life n post := by
    rw [htr, life_append]; simp [life, tagOf]
  have := prefix_begin_once (by
    rcases life_shape hI hT n with h | ⟨_, h⟩ | ⟨_, h⟩
    · exact .inl h
    · exact .inr (.inl h)
    · exact .inr (.inr h)) hl
  rw [begin_mem_life, begin_mem_life]
  exact ⟨fun ⟨y, h⟩ => this.1 y h, fun ⟨y, h⟩ => this.2 y h⟩

/-- Every prefix of the history satisfies what is implied by the guards at job starts. -/
theorem running_prefix {P : List Event → Prop} (h0 : P [])
    (hstep : ∀ pre e, Guard C pre e → P pre → P (pre ++ [e]))
    (hT : TInv C s) : ∀ pre post, s.trace = pre ++ post → P pre := by
  intro pre
  induction pre using List.reverseRecOn with
  | nil => intro _ _; exact h0
  | append_singleton pre e ih =>
    intro post htr
    have htr' : s.trace = pre ++ e :: post := by rw [htr]; simp
    exact hstep pre e (hT.always pre e post htr') (ih _ htr')

theorem running_snoc {pre : List Event} {e : Event} {n : Node} (h : Running (pre ++ [e]) n) :
    Running pre n ∨ ∃ b, e = .jobBegin n b := by
  obtain ⟨⟨b, hb⟩, he⟩ := h
  rcases List.mem_append.1 hb with hb | hb
  · exact .inl ⟨⟨b, hb⟩, fun h => he (List.mem_append_left _ h)⟩
  · rw [List.mem_singleton] at hb; exact .inr ⟨b, hb.symm⟩

end Joque
