import Verif.Spec.Task

namespace Joque

mutual
/-- paths in visiting order -/
def paths : TaskSet → List (List Str × TaskId)
  | .mk tasks sets => tasks.map (fun e => ([e.1], e.2)) ++ pathsSub sets

def pathsSub : List (Str × TaskSet) → List (List Str × TaskId)
  | [] => []
  | (n, s) :: rest => (paths s).map (fun e => (n :: e.1, e.2)) ++ pathsSub rest
end

/-- name of a path below a prefix -/
def nameFrom (pfx : Str) (p : List Str) : Str := pfx ++ p.flatMap (fun c => '/' :: c)

mutual
theorem forEach_paths (pfx : Str) : ∀ ts : TaskSet,
    forEachTaskImpl pfx ts = (paths ts).map (fun e => (nameFrom pfx e.1, e.2))
  | .mk tasks sets => by
    simp only [forEachTaskImpl, paths, List.map_append, List.map_map, forEachSub_paths pfx sets]
    congr 1
    apply List.map_congr_left
    intro e _
    simp [nameFrom]

theorem forEachSub_paths (pfx : Str) : ∀ sets : List (Str × TaskSet),
    forEachSubset pfx sets = (pathsSub sets).map (fun e => (nameFrom pfx e.1, e.2))
  | [] => rfl
  | (n, s) :: rest => by
    simp only [forEachSubset, pathsSub, List.map_append, List.map_map,
      forEach_paths _ s, forEachSub_paths pfx rest]
    congr 1
    apply List.map_congr_left
    intro e _
    simp [nameFrom]
end

mutual
theorem paths_at : ∀ (ts : TaskSet) p t, (p, t) ∈ paths ts ↔ At ts p t
  | .mk tasks sets, p, t => by
    simp only [paths, List.mem_append, List.mem_map, pathsSub_at sets]
    constructor
    · rintro (⟨⟨n, t'⟩, h, he⟩ | ⟨n, s, q, hs, rfl, ha⟩)
      · cases he; exact .here h
      · exact .sub hs ha
    · intro h
      cases h with
      | here h => exact .inl ⟨_, h, rfl⟩
      | sub hs ha => exact .inr ⟨_, _, _, hs, rfl, ha⟩

theorem pathsSub_at : ∀ (sets : List (Str × TaskSet)) p t,
    (p, t) ∈ pathsSub sets ↔ ∃ n s q, (n, s) ∈ sets ∧ p = n :: q ∧ At s q t
  | [], p, t => by simp [pathsSub]
  | (n, s) :: rest, p, t => by
    simp only [pathsSub, List.mem_append, List.mem_map, pathsSub_at rest]
    constructor
    · rintro (⟨⟨q, t'⟩, h, he⟩ | ⟨m, s', q, hs, hp, ha⟩)
      · cases he; exact ⟨n, s, q, by simp, rfl, (paths_at s q _).1 h⟩
      · exact ⟨m, s', q, by simp [hs], hp, ha⟩
    · rintro ⟨m, s', q, hs, rfl, ha⟩
      rcases List.mem_cons.1 hs with he | hs
      · cases he; exact .inl ⟨(q, t), (paths_at s q t).2 ha, rfl⟩
      · exact .inr ⟨m, s', q, hs, rfl, ha⟩
end

theorem At.ne_nil {ts p t} (h : At ts p t) : p ≠ [] := by cases h <;> simp

mutual
theorem paths_order : ∀ (ts : TaskSet), ts.Keys → (paths ts).Pairwise (fun a b => Before a.1 b.1)
  | .mk tasks sets, h => by
    cases h with
    | mk ht hs hk =>
    simp only [paths]
    rw [List.pairwise_append]
    refine ⟨?_, pathsSub_order sets hs hk, ?_⟩
    · rw [List.pairwise_map]
      exact (List.pairwise_map.1 ht).imp (fun h => .task h)
    · rintro a ha ⟨p, t⟩ hb
      obtain ⟨e, _, rfl⟩ := List.mem_map.1 ha
      obtain ⟨n, s, q, _, rfl, hat⟩ := (pathsSub_at sets p t).1 hb
      cases q with
      | nil => exact absurd rfl hat.ne_nil
      | cons x q => exact .deep

theorem pathsSub_order : ∀ (sets : List (Str × TaskSet)),
    (sets.map Prod.fst).Pairwise (· < ·) → (∀ e ∈ sets, e.2.Keys) →
    (pathsSub sets).Pairwise (fun a b => Before a.1 b.1)
  | [], _, _ => by simp [pathsSub]
  | (n, s) :: rest, hs, hk => by
    simp only [List.map_cons, List.pairwise_cons] at hs
    simp only [pathsSub]
    rw [List.pairwise_append]
    refine ⟨?_, pathsSub_order rest hs.2 (fun e he => hk e (by simp [he])), ?_⟩
    · rw [List.pairwise_map]
      exact (paths_order s (hk (n, s) (by simp))).imp (fun h => .cons h)
    · rintro a ha ⟨p, t⟩ hb
      obtain ⟨⟨q, t'⟩, hq, rfl⟩ := List.mem_map.1 ha
      obtain ⟨m, s', q', hm, rfl, hat⟩ := (pathsSub_at rest p t).1 hb
      have hlt := hs.1 m (List.mem_map.2 ⟨_, hm, rfl⟩)
      have hq2 := (paths_at s q t').1 hq
      cases q with
      | nil => exact absurd rfl hq2.ne_nil
      | cons x q =>
        cases q' with
        | nil => exact absurd rfl hat.ne_nil
        | cons y q' => exact .sets hlt
end

theorem str_lt_irrefl (s : Str) : ¬ s < s := List.lt_irrefl s

theorem before_irrefl : ∀ p : List Str, ¬ Before p p := by
  intro p
  induction p with
  | nil => intro h; cases h
  | cons x p ih =>
    intro h
    cases h with
    | task h => exact str_lt_irrefl _ h
    | sets h => exact str_lt_irrefl _ h
    | cons h => exact ih h

theorem paths_nodup {ts : TaskSet} (h : ts.Keys) : ((paths ts).map Prod.fst).Nodup := by
  rw [List.Nodup, List.pairwise_map]
  exact (paths_order ts h).imp (fun {a b} hab he => by rw [he] at hab; exact before_irrefl _ hab)

theorem nameFrom_full {p : List Str} (hp : p ≠ []) : nameFrom ['/'] p = fullName p := by
  cases p with
  | nil => exact absurd rfl hp
  | cons x p =>
    simp only [nameFrom, fullName, List.flatMap_cons]
    have : ∀ (x : Str) (p : List Str), x ++ p.flatMap (fun c => '/' :: c) = List.intercalate ['/'] (x :: p) := by
      intro x p
      induction p generalizing x with
      | nil => simp [List.intercalate]
      | cons y p ih =>
        rw [List.flatMap_cons, List.cons_append, ih y]
        simp [List.intercalate, List.intersperse]
    rw [← this]
    simp

theorem forEachTask_paths (ts : TaskSet) :
    forEachTask ts = (paths ts).map (fun e => (fullName e.1, e.2)) := by
  unfold forEachTask
  rw [forEach_paths]
  apply List.map_congr_left
  rintro ⟨p, t⟩ h
  have := ((paths_at ts p t).1 h).ne_nil
  simp only [nameFrom_full this]

theorem forEachTask_snd (ts : TaskSet) : (forEachTask ts).map Prod.snd = (paths ts).map Prod.snd := by
  rw [forEachTask_paths, List.map_map]; rfl

theorem tasks_nodup {ts : TaskSet} (h : ts.WF) : ((forEachTask ts).map Prod.snd).Nodup := by
  rw [forEachTask_snd, List.Nodup, List.pairwise_map]
  have := paths_order ts h.keys
  refine this.imp_of_mem (fun {a b} ha hb hab he => ?_)
  have h1 := (paths_at ts a.1 a.2).1 ha
  have h2 := (paths_at ts b.1 b.2).1 hb
  rw [← he] at h2
  rw [h.objects _ _ _ h1 h2] at hab
  exact before_irrefl _ hab

theorem mem_forEachTask {ts : TaskSet} {name : Str} {t : TaskId} :
    (name, t) ∈ forEachTask ts ↔ ∃ p, At ts p t ∧ name = fullName p := by
  rw [forEachTask_paths, List.mem_map]
  constructor
  · rintro ⟨⟨p, t'⟩, h, he⟩
    cases he
    exact ⟨p, (paths_at ts p _).1 h, rfl⟩
  · rintro ⟨p, h, rfl⟩
    exact ⟨(p, t), (paths_at ts p t).2 h, rfl⟩

theorem mem_forEachTask_snd {ts : TaskSet} {t : TaskId} :
    t ∈ (forEachTask ts).map Prod.snd ↔ ts.Has t := by
  rw [List.mem_map]
  constructor
  · rintro ⟨⟨n, t'⟩, h, rfl⟩
    obtain ⟨p, hp, _⟩ := mem_forEachTask.1 h
    exact ⟨p, hp⟩
  · rintro ⟨p, hp⟩
    exact ⟨(fullName p, t), mem_forEachTask.2 ⟨p, hp, rfl⟩, rfl⟩

/-- splitting at '/' is unambiguous when no component contains it -/
theorem flat_inj : ∀ (p q : List Str), (∀ c ∈ p, '/' ∉ c) → (∀ c ∈ q, '/' ∉ c) →
    p.flatMap (fun c => '/' :: c) = q.flatMap (fun c => '/' :: c) → p = q := by
  have key : ∀ (x y a b : Str), '/' ∉ x → '/' ∉ y → (a = [] ∨ ∃ a', a = '/' :: a') →
      (b = [] ∨ ∃ b', b = '/' :: b') → x ++ a = y ++ b → x = y ∧ a = b := by
    intro x
    induction x with
    | nil =>
      intro y a b _ hy ha hb h
      cases y with
      | nil => exact ⟨rfl, by simpa using h⟩
      | cons c y =>
        simp only [List.nil_append, List.cons_append] at h
        rcases ha with rfl | ⟨a', rfl⟩
        · cases h
        · injection h with h1 h2; subst h1; exact absurd List.mem_cons_self hy
    | cons c x ih =>
      intro y a b hx hy ha hb h
      cases y with
      | nil =>
        simp only [List.nil_append, List.cons_append] at h
        rcases hb with rfl | ⟨b', rfl⟩
        · cases h
        · injection h with h1 h2; subst h1; exact absurd List.mem_cons_self hx
      | cons d y =>
        simp only [List.cons_append] at h
        injection h with h1 h2
        obtain ⟨e1, e2⟩ := ih y a b (fun hm => hx (List.mem_cons_of_mem _ hm))
          (fun hm => hy (List.mem_cons_of_mem _ hm)) ha hb h2
        exact ⟨by rw [h1, e1], e2⟩
  have hshape : ∀ p : List Str, p.flatMap (fun c => '/' :: c) = [] ∨
      ∃ a', p.flatMap (fun c => '/' :: c) = '/' :: a' := by
    intro p; cases p with
    | nil => exact .inl rfl
    | cons x p => exact .inr ⟨_, by rw [List.flatMap_cons, List.cons_append]⟩
  intro p
  induction p with
  | nil =>
    intro q _ _ h
    cases q with
    | nil => rfl
    | cons y q => simp at h
  | cons x p ih =>
    intro q hp hq h
    cases q with
    | nil => simp at h
    | cons y q =>
      simp only [List.flatMap_cons, List.cons_append, List.cons.injEq, true_and] at h
      obtain ⟨e1, e2⟩ := key x y _ _ (hp x (by simp)) (hq y (by simp)) (hshape p) (hshape q) h
      rw [e1, ih q (fun c hc => hp c (by simp [hc])) (fun c hc => hq c (by simp [hc])) e2]

theorem fullName_inj {p q : List Str} (hp0 : p ≠ []) (hq0 : q ≠ []) (hp : ∀ c ∈ p, '/' ∉ c)
    (hq : ∀ c ∈ q, '/' ∉ c) (h : fullName p = fullName q) : p = q := by
  rw [← nameFrom_full hp0, ← nameFrom_full hq0] at h
  unfold nameFrom at h
  exact flat_inj p q hp hq (List.append_cancel_left h)

end Joque
