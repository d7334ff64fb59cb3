import Verif.Props.FormatDag

/-! # C47: exactly when the line is right -/

namespace Joque

theorem split_comma : ∀ {x y r q : Str}, ',' ∉ x → ',' ∉ y → x ++ ',' :: r = y ++ ',' :: q → x = y ∧ r = q := by
  intro x
  induction x with
  | nil =>
    intro y r q _ hy h
    cases y with
    | nil => injection h with _ h; exact ⟨rfl, h⟩
    | cons c y => injection h with h _; exact absurd (h ▸ List.mem_cons_self) hy
  | cons c x ih =>
    intro y r q hx hy h
    cases y with
    | nil => injection h with h _; exact absurd (h ▸ List.mem_cons_self) hx
    | cons d y =>
      injection h with h1 h2
      obtain ⟨h3, h4⟩ := ih (fun hc => hx (List.mem_cons_of_mem _ hc))
        (fun hc => hy (List.mem_cons_of_mem _ hc)) h2
      exact ⟨by rw [h1, h3], h4⟩

theorem comma_join (x y : Str) (l : List Str) :
    ", ".toList.intercalate (x :: y :: l) = x ++ ',' :: ' ' :: ", ".toList.intercalate (y :: l) := by
  rw [List.intercalate_cons_cons, List.append_assoc]
  rfl

theorem join_inj : ∀ {a b : List Str}, a ≠ [] → b ≠ [] → (∀ x ∈ a, ',' ∉ x) → (∀ x ∈ b, ',' ∉ x) →
    ", ".toList.intercalate a = ", ".toList.intercalate b → a = b := by
  intro a
  induction a with
  | nil => exact fun h => absurd rfl h
  | cons x a ih =>
    intro b _ hb ha hb' h
    cases b with
    | nil => exact absurd rfl hb
    | cons y b =>
      have hx := ha x List.mem_cons_self
      have hy := hb' y List.mem_cons_self
      cases a with
      | nil =>
        cases b with
        | nil =>
          have : x = y := by simpa [List.intercalate] using h
          rw [this]
        | cons y' b =>
          rw [comma_join] at h
          have : x = y ++ ',' :: ' ' :: ", ".toList.intercalate (y' :: b) := by
            simpa [List.intercalate] using h
          exact absurd (by rw [this]; simp) hx
      | cons x' a =>
        cases b with
        | nil =>
          rw [comma_join] at h
          have : x ++ ',' :: ' ' :: ", ".toList.intercalate (x' :: a) = y := by
            simpa [List.intercalate] using h
          exact absurd (by rw [← this]; simp) hy
        | cons y' b =>
          rw [comma_join, comma_join] at h
          obtain ⟨h1, h2⟩ := split_comma hx hy h
          injection h2 with _ h2
          rw [h1, ih (List.cons_ne_nil _ _) (List.cons_ne_nil _ _)
            (fun z hz => ha z (List.mem_cons_of_mem _ hz))
            (fun z hz => hb' z (List.mem_cons_of_mem _ hz)) h2]

theorem afterLine_inj {a b : List Str} (ha : ∀ x ∈ a, ',' ∉ x) (hb : ∀ x ∈ b, ',' ∉ x)
    (h : afterLine a = afterLine b) : a = b := by
  unfold afterLine at h
  replace h := List.append_cancel_left (List.append_cancel_right h |> fun h => h)
  by_cases h1 : a = [] <;> by_cases h2 : b = []
  · rw [h1, h2]
  · rw [if_pos h1, if_neg h2] at h
    have := congrArg List.length h
    simp at this
  · rw [if_neg h1, if_pos h2] at h
    have := congrArg List.length h
    simp at this
  · rw [if_neg h1, if_neg h2] at h
    exact join_inj h1 h2 ha hb (List.append_cancel_left (List.append_cancel_right h))

theorem map_inj_on {α β : Type} {f : α → β} : ∀ {a b : List α},
    (∀ x ∈ a, ∀ y ∈ b, f x = f y → x = y) → a.map f = b.map f → a = b := by
  intro a
  induction a with
  | nil => intro b _ h; cases b with | nil => rfl | cons y b => cases h
  | cons x a ih =>
    intro b hi h
    cases b with
    | nil => cases h
    | cons y b =>
      injection h with h1 h2
      rw [hi x List.mem_cons_self y List.mem_cons_self h1,
        ih (fun u hu v hv => hi u (List.mem_cons_of_mem _ hu) v (List.mem_cons_of_mem _ hv)) h2]

/-- **C47**, exactly, when the tasks a node has edges to can be told apart in the line: their names
differ and have no commas.  The line is right if and only if the node has AFTER edges only, and none of them
twice. -/
theorem C47_exact (g : Dag) (k : Nat) (n : Node) (hk : g.nodes[k]? = some n)
    (hcomma : ∀ e ∈ g.edges, e.src = n → ',' ∉ g.name e.tgt)
    (hinj : ∀ e ∈ g.edges, ∀ e' ∈ g.edges, e.src = n → e'.src = n → g.name e.tgt = g.name e'.tgt →
      e.tgt = e'.tgt) :
    (∃ line, (formatDag g)[2 * k + 1]? = some line ∧ ListsAfter g n line) ↔
      (∀ e ∈ g.edges, e.src = n → e.kind = .after) ∧ ∀ m, g.edges.count ⟨n, m, .after⟩ ≤ 1 := by
  constructor
  · rintro ⟨line, hl, l, hnd, hmem, rfl⟩
    rw [(C47_pairs g k n hk).2.1] at hl
    injection hl with hl
    have hmap : ((g.edges.filter fun e => e.src = n).map fun e => g.name e.tgt) =
        ((g.edges.filter fun e => e.src = n).map Edge.tgt).map g.name := by
      rw [List.map_map]; rfl
    rw [hmap] at hl
    have hts : ∀ m ∈ (g.edges.filter fun e => e.src = n).map Edge.tgt, ∃ e ∈ g.edges, e.src = n ∧ e.tgt = m := by
      intro m hm
      obtain ⟨e, he, rfl⟩ := List.mem_map.1 hm
      obtain ⟨h1, h2⟩ := List.mem_filter.1 he
      exact ⟨e, h1, by simpa using h2, rfl⟩
    have hls : ∀ m ∈ l, ∃ e ∈ g.edges, e.src = n ∧ e.tgt = m := fun m hm => ⟨_, (hmem m).1 hm, rfl, rfl⟩
    have heq : (g.edges.filter fun e => e.src = n).map Edge.tgt = l := by
      refine map_inj_on (f := g.name) ?_ (afterLine_inj ?_ ?_ hl)
      · intro x hx y hy hxy
        obtain ⟨e, he, h1, rfl⟩ := hts x hx
        obtain ⟨e', he', h1', rfl⟩ := hls y hy
        exact hinj e he e' he' h1 h1' hxy
      · intro x hx
        obtain ⟨m, hm, rfl⟩ := List.mem_map.1 hx
        obtain ⟨e, he, h1, rfl⟩ := hts m hm
        exact hcomma e he h1
      · intro x hx
        obtain ⟨m, hm, rfl⟩ := List.mem_map.1 hx
        obtain ⟨e, he, h1, rfl⟩ := hls m hm
        exact hcomma e he h1
    rw [← heq] at hnd
    constructor
    · intro e he hsrc
      have h1 : e ∈ g.edges.filter fun e => e.src = n := List.mem_filter.2 ⟨he, by simpa using hsrc⟩
      have h2 : e.tgt ∈ l := heq ▸ List.mem_map_of_mem h1
      have h3 : (⟨n, e.tgt, .after⟩ : Edge) ∈ g.edges.filter fun e => e.src = n :=
        List.mem_filter.2 ⟨(hmem _).1 h2, by simp⟩
      have h4 : e = ⟨n, e.tgt, .after⟩ := List.inj_on_of_nodup_map hnd h1 h3 rfl
      rw [h4]
    · intro m
      have h1 : (g.edges.filter fun e => e.src = n).Nodup := List.Nodup.of_map _ hnd
      have h2 := List.nodup_iff_count_le_one.1 h1 ⟨n, m, .after⟩
      rw [List.count_filter (by simp)] at h2
      exact h2
  · rintro ⟨h1, h2⟩
    exact C47_partial g k n hk h1 h2

/-- the hypotheses hold for the example with a dependency, and the line is wrong there -/
example : (∀ e ∈ Ex.depDag.edges, ',' ∉ Ex.depDag.name e.tgt) ∧
    (∀ e ∈ Ex.depDag.edges, ∀ e' ∈ Ex.depDag.edges, Ex.depDag.name e.tgt = Ex.depDag.name e'.tgt → e.tgt = e'.tgt) ∧
    ¬ ∀ e ∈ Ex.depDag.edges, e.kind = .after := by decide +kernel

end Joque
