import Verif.Model.Assemble
import Verif.Props.Local
import Verif.Props.Exact

/-! # Assembling a task set from parts (C98) -/

namespace Joque

theorem str_lt_trans {a b c : Str} (h1 : a < b) (h2 : b < c) : a < c := List.lt_trans h1 h2

theorem str_lt_of_not {a b : Str} (h : ¬ a < b) (hne : a ≠ b) : b < a := by
  by_contra hc
  exact hne (List.le_antisymm (by simpa using hc) (by simpa using h))

theorem mem_mapPut {α : Type} {n : Str} {v : α} : ∀ {l : List (Str × α)},
    (l.map Prod.fst).Pairwise (· < ·) → ∀ k w,
    ((k, w) ∈ mapPut n v l ↔ (k = n ∧ w = v) ∨ (k ≠ n ∧ (k, w) ∈ l)) := by
  intro l
  induction l with
  | nil =>
    intro _ k w
    simp only [mapPut, List.mem_singleton, Prod.mk.injEq, List.not_mem_nil, and_false, or_false]
  | cons e r ih =>
    obtain ⟨k0, w0⟩ := e
    intro hs k w
    simp only [List.map_cons, List.pairwise_cons] at hs
    have hr : ∀ k' w', (k', w') ∈ r → k0 < k' := fun k' w' h =>
      hs.1 k' (List.mem_map.2 ⟨_, h, rfl⟩)
    simp only [mapPut]
    split_ifs with h1 h2
    · subst h1
      simp only [List.mem_cons, Prod.mk.injEq]
      constructor
      · rintro (h | h)
        · exact .inl h
        · exact .inr ⟨fun hk => str_lt_irrefl _ (hk ▸ hr _ _ h), .inr h⟩
      · rintro (h | ⟨h0, h | h⟩)
        · exact .inl h
        · exact absurd h.1 h0
        · exact .inr h
    · simp only [List.mem_cons, Prod.mk.injEq]
      constructor
      · rintro (h | h | h)
        · exact .inl h
        · exact .inr ⟨fun hk => h1 (hk ▸ h.1), .inl h⟩
        · exact .inr ⟨fun hk => str_lt_irrefl _ (str_lt_trans h2 (hk ▸ hr _ _ h)), .inr h⟩
      · rintro (h | ⟨_, h | h⟩)
        · exact .inl h
        · exact .inr (.inl h)
        · exact .inr (.inr h)
    · simp only [List.mem_cons, Prod.mk.injEq, ih hs.2]
      constructor
      · rintro (h | h | h)
        · exact .inr ⟨fun hk => h1 (hk ▸ h.1), .inl h⟩
        · exact .inl h
        · exact .inr ⟨h.1, .inr h.2⟩
      · rintro (h | ⟨h0, h | h⟩)
        · exact .inr (.inl h)
        · exact .inl h
        · exact .inr (.inr ⟨h0, h⟩)

theorem mapPut_sorted {α : Type} {n : Str} {v : α} : ∀ {l : List (Str × α)},
    (l.map Prod.fst).Pairwise (· < ·) → ((mapPut n v l).map Prod.fst).Pairwise (· < ·) := by
  intro l
  induction l with
  | nil => intro _; simp [mapPut]
  | cons e r ih =>
    obtain ⟨k0, w0⟩ := e
    intro hs
    have hs' := hs
    simp only [List.map_cons, List.pairwise_cons] at hs
    simp only [mapPut]
    split_ifs with h1 h2
    · exact hs'
    · simp only [List.map_cons, List.pairwise_cons, List.mem_cons]
      refine ⟨fun a ha => ?_, hs.1, hs.2⟩
      rcases ha with rfl | ha
      · exact h2
      · exact str_lt_trans h2 (hs.1 a ha)
    · simp only [List.map_cons, List.pairwise_cons]
      refine ⟨fun a ha => ?_, ih hs.2⟩
      obtain ⟨⟨a', w⟩, hm, rfl⟩ := List.mem_map.1 ha
      rcases (mem_mapPut hs.2 a' w).1 hm with ⟨h, _⟩ | ⟨_, h⟩
      · exact h ▸ str_lt_of_not h2 h1
      · exact hs.1 _ (List.mem_map.2 ⟨_, h, rfl⟩)

/-- **C98**, where things are afterwards: `ts.sets[n] = std::move(s)` puts every task of `s` below
`n`; the tasks of `ts` stay where they were, except that what was below `n` is gone. -/
theorem C98_paths (ts : TaskSet) (n : Str) (s : TaskSet) (h : ts.Keys) (p : List Str) (t : TaskId) :
    At (ts.putSet n s) p t ↔
      (∃ q, p = n :: q ∧ At s q t) ∨ (At ts p t ∧ ¬ ∃ x q, p = n :: x :: q) := by
  obtain ⟨tasks, sets⟩ := ts
  cases h with
  | mk h1 h2 h3 =>
    constructor
    · intro hat
      cases hat with
      | here hm => exact .inr ⟨.here hm, by rintro ⟨x, q, h⟩; cases h⟩
      | sub hm hat =>
        rcases (mem_mapPut h2 _ _).1 hm with ⟨rfl, rfl⟩ | ⟨h0, hm'⟩
        · exact .inl ⟨_, rfl, hat⟩
        · exact .inr ⟨.sub hm' hat, by rintro ⟨x, q, h⟩; cases h; exact h0 rfl⟩
    · rintro (⟨q, rfl, hat⟩ | ⟨hat, hne⟩)
      · exact .sub ((mem_mapPut h2 _ _).2 (.inl ⟨rfl, rfl⟩)) hat
      · cases hat with
        | here hm => exact .here hm
        | @sub _ _ m s' q _ hm hat =>
          refine .sub ((mem_mapPut h2 _ _).2 (.inr ⟨?_, hm⟩)) hat
          rintro rfl
          cases q with
          | nil => exact absurd rfl hat.ne_nil
          | cons x q => exact hne ⟨x, q, rfl⟩

/-- **C98**, the result is a task set again, if the two had no task in common (they are different
objects). -/
theorem C98_wf (ts : TaskSet) (n : Str) (s : TaskSet) (h : ts.WF) (hs : s.WF)
    (hd : ∀ t, ts.Has t → ¬ s.Has t) : (ts.putSet n s).WF := by
  refine ⟨?_, ?_⟩
  · have hk := h.keys
    obtain ⟨tasks, sets⟩ := ts
    cases hk with
    | mk h1 h2 h3 =>
      refine .mk h1 (mapPut_sorted h2) ?_
      rintro ⟨k, w⟩ he
      rcases (mem_mapPut h2 _ _).1 he with ⟨_, h⟩ | ⟨_, h⟩
      · exact h ▸ hs.keys
      · exact h3 _ h
  · intro p q t hp hq
    rw [C98_paths ts n s h.keys] at hp hq
    rcases hp with ⟨p', rfl, hp⟩ | ⟨hp, _⟩ <;> rcases hq with ⟨q', rfl, hq⟩ | ⟨hq, _⟩
    · rw [hs.objects _ _ _ hp hq]
    · exact absurd ⟨_, hp⟩ (hd t ⟨_, hq⟩)
    · exact absurd ⟨_, hq⟩ (hd t ⟨_, hp⟩)
    · exact h.objects _ _ _ hp hq

/-- **C98**, the names: a task called `//x` in `s` is called `//n/x` in the whole. -/
theorem C98_name (n : Str) (s : TaskSet) (q : List Str) (t : TaskId) (h : At s q t) :
    ∃ x, fullName q = "//".toList ++ x ∧ fullName (n :: q) = "//".toList ++ n ++ "/".toList ++ x := by
  refine ⟨List.intercalate ['/'] q, rfl, ?_⟩
  cases q with
  | nil => exact absurd rfl h.ne_nil
  | cons a q => simp [fullName, List.intercalate, List.intersperse]

theorem selected_putSet {st : Store} {ts s : TaskSet} {n : Str} (h : ts.Keys) {t : TaskId}
    (ht : Selected st s [] t) : Selected st (ts.putSet n s) [] t := by
  obtain ⟨p, r, h1, _, h3⟩ := ht
  exact ⟨n :: p, r, (C98_paths ts n s h _ _).2 (.inl ⟨p, rfl, h1⟩), List.nil_infix, h3⟩

/-- **C98**, the relations: the dag of the whole has, for every node of the dag of `s` alone, a node for
the same task, and between these it has the same edges, as many of each kind. -/
theorem C98_edges (st : Store) (ts : TaskSet) (n : Str) (s : TaskSet) (hk : ts.Keys)
    {E1 E2 : BEnv} {univ1 visit1 univ2 visit2 : List TaskId}
    {order1 order2 : List TaskId → List TaskId} {s1 s2 : BSt} (he1 : E1.store = st) (he2 : E2.store = st)
    (h1 : Run E1 s univ1 visit1 order1 [] s1)
    (h2 : Run E2 (ts.putSet n s) univ2 visit2 order2 [] s2) :
    (∀ a ∈ s1.dag.nodes, ∃ a' ∈ s2.dag.nodes, s2.dag.task a' = s1.dag.task a) ∧
    ∀ a ∈ s1.dag.nodes, ∀ b ∈ s1.dag.nodes, ∀ a' ∈ s2.dag.nodes, ∀ b' ∈ s2.dag.nodes,
      s2.dag.task a' = s1.dag.task a → s2.dag.task b' = s1.dag.task b →
      ∀ k, s2.dag.edges.count ⟨a', b', k⟩ = s1.dag.edges.count ⟨a, b, k⟩ := by
  refine ⟨fun a ha => ?_, fun a ha b hb a' ha' b' hb' e1 e2 k => ?_⟩
  · have := h1.sel ha
    rw [he1] at this
    exact h2.node (by rw [he2]; exact selected_putSet hk this)
  · obtain ⟨f1, hf1, hb1⟩ := h1.built
    obtain ⟨f2, hf2, hb2⟩ := h2.built
    rw [(C23_empty E1 _ _ _ _ h1.env f1 hf1 [] s1 hb1).1 a ha b hb k,
      (C23_empty E2 _ _ _ _ h2.env f2 hf2 [] s2 hb2).1 a' ha' b' hb' k, e1, e2, he1, he2]

/-- **C98**, the results: a task of `s` gets in an execution of the whole the result it gets in an
execution of `s` alone, if what the tasks of `s` are invalidated by is not elsewhere in the whole. -/
theorem C98_results (st : Store) (ts : TaskSet) (n : Str) (s : TaskSet) (hk : ts.Keys)
    (rs1 rs2 : List RunRecord) (h1 : Finished st s [] rs1) (h2 : Finished st (ts.putSet n s) [] rs2)
    (hcl : ∀ t d, Selected st s [] t → d ∈ (st t).invalidatedBy →
      Selected st (ts.putSet n s) [] d → Selected st s [] d) :
    ∀ r1 ∈ rs1, ∃ r2 ∈ rs2, r2.t = r1.t ∧
      r1.status = r2.status ∧ r1.retcode = r2.retcode ∧ r1.output = r2.output := by
  intro r1 hr1
  obtain ⟨v1, s1⟩ := h1.solved
  obtain ⟨v2, s2⟩ := h2.solved
  have hs := (s1.all r1.t).2 (List.mem_map_of_mem hr1)
  obtain ⟨r2, hr2, ht⟩ := List.mem_map.1 ((s2.all r1.t).1 (selected_putSet hk hs))
  refine ⟨r2, hr2, ht, C90_local st st s (ts.putSet n s) [] [] rs1 rs2 h1 h2 r1 r2 hr1 hr2 ht.symm ?_⟩
  intro u hu
  have hsel : Selected st s [] u := by
    induction hu with
    | refl => exact hs
    | tail _ h _ => exact h.1
  refine ⟨⟨rfl, fun _ => Iff.rfl, fun _ => Iff.rfl⟩, fun d hd => ⟨selected_putSet hk, fun h => ?_⟩⟩
  rcases hd with hd | hd
  · exact s1.closed u hsel d hd
  · exact hcl u d hsel hd h

/-! ## Moving a task -/

/-- `t` names `d` in one of its lists -/
def Refers (st : Store) (t d : TaskId) : Prop :=
  d ∈ (st t).dependsOn ∨ d ∈ (st t).runAfter ∨ d ∈ (st t).invalidatedBy

/-- the object that is the task after `dst = std::move(src)` -/
def nowAt (src dst t : TaskId) : TaskId := if t = src then dst else t

theorem move_nowAt (st : Store) {src dst t : TaskId} (hne : src ≠ dst) (ht : t ≠ dst) :
    (st.move src dst) (nowAt src dst t) = st t := by
  by_cases h : t = src
  · subst h
    simp [Store.move, Store.set, nowAt, hne.symm]
  · simp [Store.move, Store.set, nowAt, h, ht]

/-- **C98** for a single task, exactly: `dst = std::move(src)`, where nothing refers to the new object
yet, keeps all relations between tasks if and only if nothing refers to `src`. -/
theorem C98_exact (st : Store) (src dst : TaskId) (hne : src ≠ dst)
    (hnew : ∀ t, ¬ Refers st t dst) :
    (∀ t d, t ≠ dst → Refers st t d →
      Refers (st.move src dst) (nowAt src dst t) (nowAt src dst d)) ↔
    ∀ t, t ≠ dst → ¬ Refers st t src := by
  constructor
  · intro h t ht hr
    have := h t src ht hr
    simp only [Refers, move_nowAt st hne ht] at this
    simp only [nowAt, if_true] at this
    exact hnew t this
  · intro h t d ht hr
    have hd : d ≠ src := fun hd => h t ht (hd ▸ hr)
    simp only [Refers, move_nowAt st hne ht]
    rw [nowAt, if_neg hd]
    exact hr

/-- **C98**, where it holds: a task that nothing refers to can be moved; all relations, jobs, resources
and the `hidden` flag are those of before. -/
theorem C98_partial (st : Store) (src dst : TaskId) (hne : src ≠ dst)
    (hnone : ∀ t, t ≠ dst → ¬ Refers st t src) (t : TaskId) (ht : t ≠ dst) :
    (st.move src dst) (nowAt src dst t) = st t ∧
    ∀ d, Refers st t d → nowAt src dst d = d :=
  ⟨move_nowAt st hne ht, fun d hr =>
    if_neg fun (hd : d = src) => hnone t ht (hd ▸ hr)⟩

/-- **C98**, what stays behind: an object without a job, references and resources, as visible as before. -/
theorem C98_left (st : Store) (src dst : TaskId) :
    ((st.move src dst) src).job = none ∧ (∀ d, ¬ Refers (st.move src dst) src d) ∧
    ((st.move src dst) src).resources = [] ∧ ((st.move src dst) src).hidden = (st src).hidden := by
  simp [Store.move, Store.set, Task.movedFrom, Refers]

/-- **C98**, what happens otherwise to `depends_on`: if something selected depends on the object that was
moved away, executing the set is undefined behaviour (unless there is a cycle or an `is_invalidated`
that throws): the empty object is scheduled. -/
theorem C98_moved_ub (st : Store) (src dst : TaskId) {E : BEnv} {ts : TaskSet}
    {univ visit : List TaskId} {order : List TaskId → List TaskId} {filter : Str} {s : BSt} (tc : Nat)
    (he : E.store = st.move src dst) (h : Run E ts univ visit order filter s) (t : TaskId)
    (ht : Selected E.store ts filter t) (hd : src ∈ (E.store t).dependsOn)
    (hac : ¬ Cyclic s.dag)
    (hask : ∀ n ∈ s.dag.nodes, ∃ a, (execCfg E.store s.dag tc).ask n = .answer a) :
    (exec (execCfg E.store s.dag tc) [.ctl]).phase = .ub := by
  obtain ⟨a, ha, hta⟩ := h.node (h.depSel ht hd)
  refine C51_always_ub _ (h.wf tc) hac hask ⟨a, ha, ?_⟩
  show ((E.store (s.dag.task a)).job).isSome = false
  rw [hta, he]
  simp [Store.move, Store.set, Task.movedFrom]

/-- **C98**, and to `run_after` and `invalidated_by`: they are lost without a word.  The dag has a node
for the object that was moved away only if something depends on it, and an edge to the new object only
if something refers to that. -/
theorem C98_moved_lost {E : BEnv} {ts : TaskSet}
    {univ visit : List TaskId} {order : List TaskId → List TaskId} {filter : Str} {s : BSt}
    (src dst : TaskId) (h : Run E ts univ visit order filter s)
    (hnew : ∀ t, ¬ Refers E.store t dst) (hsrc : ¬ ts.Has src)
    (hdep : ∀ t, Selected E.store ts filter t → src ∉ (E.store t).dependsOn) :
    (∀ n ∈ s.dag.nodes, s.dag.task n ≠ src) ∧
    ∀ a b k, HasEdge s.dag k a b → s.dag.task b ≠ dst := by
  constructor
  · intro n hn hc
    obtain ⟨p, r, h1, h2, h3⟩ := h.sel hn
    rw [hc] at h3
    rcases Relation.ReflTransGen.cases_tail h3 with h4 | ⟨c, h4, h5⟩
    · exact hsrc ⟨p, h4 ▸ h1⟩
    · exact hdep c ⟨p, r, h1, h2, h4⟩ h5
  · intro a b k hab hc
    obtain ⟨ha, hb⟩ := h.ends hab
    have := (h.edge ha hb k).1 hab
    rw [hc] at this
    refine hnew (s.dag.task a) ?_
    simp only [Refers, ← List.count_pos_iff]
    cases k <;> simp only [declared] at this <;> omega

/-- **C98**, replacing a task: `ts.tasks[n] = std::move(t)` for a name that is there gives the object
there the value of `t`; the set and all references are as before. -/
theorem C98_replace (ts : TaskSet) (n : Str) (src new old : TaskId) (st : Store) (h : ts.WF)
    (hold : At ts [n] old) (hne : src ≠ old) :
    (∀ p t, At (ts.putTask n src new st).1 p t ↔ At ts p t) ∧
    (ts.putTask n src new st).2 old = st src ∧
    ∀ t, t ≠ old → t ≠ src → (ts.putTask n src new st).2 t = st t := by
  obtain ⟨tasks, sets⟩ := ts
  have hk := h.keys
  cases hk with
  | mk h1 h2 h3 =>
    have hm : (n, old) ∈ tasks := by
      cases hold with
      | here hm => exact hm
      | sub _ hat => exact absurd rfl hat.ne_nil
    have hnd : (tasks.map Prod.fst).Nodup :=
      List.Pairwise.imp (fun {a b} (hab : a < b) (he : a = b) => str_lt_irrefl b (he ▸ hab)) h1
    have href : TaskSet.taskRef (.mk tasks sets) n new = old := by
      simp only [TaskSet.taskRef]
      cases hf : tasks.find? fun e => decide (e.1 = n) with
      | none =>
        have := List.find?_eq_none.1 hf _ hm
        simp at this
      | some e =>
        obtain ⟨k, w⟩ := e
        have hk : k = n := by simpa using List.find?_some hf
        have hw := List.mem_of_find?_eq_some hf
        subst hk
        simp only [Option.map_some, Option.getD_some]
        exact congrArg Prod.snd (List.inj_on_of_nodup_map hnd hw hm rfl)
    have hput : ∀ e, e ∈ mapPut n old tasks ↔ e ∈ tasks := by
      rintro ⟨k, w⟩
      rw [mem_mapPut h1]
      constructor
      · rintro (⟨rfl, rfl⟩ | h)
        · exact hm
        · exact h.2
      · intro hin
        by_cases hk : k = n
        · subst hk
          exact .inl ⟨rfl, congrArg Prod.snd (List.inj_on_of_nodup_map hnd hin hm rfl)⟩
        · exact .inr ⟨hk, hin⟩
    simp only [TaskSet.putTask, href]
    refine ⟨fun p t => ⟨fun hat => ?_, fun hat => ?_⟩, ?_, fun t h1 h2 => ?_⟩
    · cases hat with
      | here hm => exact .here ((hput _).1 hm)
      | sub hm hat => exact .sub hm hat
    · cases hat with
      | here hm => exact .here ((hput _).2 hm)
      | sub hm hat => exact .sub hm hat
    · simp [Store.move, Store.set, hne.symm]
    · simp [Store.move, Store.set, h1, h2]

/-- **C98**, adding a task: for a name that is not there, the set gets the new object under it, with the
value of `t`; all other tasks and their places are as before. -/
theorem C98_add (ts : TaskSet) (n : Str) (src new : TaskId) (st : Store) (h : ts.Keys)
    (habs : ∀ t, ¬ At ts [n] t) (hne : src ≠ new) :
    (∀ p t, At (ts.putTask n src new st).1 p t ↔ (p = [n] ∧ t = new) ∨ At ts p t) ∧
    (ts.putTask n src new st).2 new = st src ∧
    ∀ t, t ≠ new → t ≠ src → (ts.putTask n src new st).2 t = st t := by
  obtain ⟨tasks, sets⟩ := ts
  cases h with
  | mk h1 h2 h3 =>
    have hno : ∀ w, (n, w) ∉ tasks := fun w hw => habs w (.here hw)
    have href : TaskSet.taskRef (.mk tasks sets) n new = new := by
      simp only [TaskSet.taskRef]
      cases hf : tasks.find? fun e => decide (e.1 = n) with
      | none => rfl
      | some e =>
        obtain ⟨k, w⟩ := e
        have hk : k = n := by simpa using List.find?_some hf
        exact absurd (List.mem_of_find?_eq_some hf) (hk ▸ hno w)
    simp only [TaskSet.putTask, href]
    refine ⟨fun p t => ⟨fun hat => ?_, fun hat => ?_⟩, ?_, fun t h1 h2 => ?_⟩
    · cases hat with
      | here hm =>
        rcases (mem_mapPut h1 _ _).1 hm with ⟨rfl, rfl⟩ | ⟨_, hm⟩
        · exact .inl ⟨rfl, rfl⟩
        · exact .inr (.here hm)
      | sub hm hat => exact .inr (.sub hm hat)
    · rcases hat with ⟨rfl, rfl⟩ | hat
      · exact .here ((mem_mapPut h1 _ _).2 (.inl ⟨rfl, rfl⟩))
      · cases hat with
        | @here _ _ m t hm =>
          by_cases hk : m = n
          · subst hk; exact absurd hm (hno t)
          · exact .here ((mem_mapPut h1 _ _).2 (.inr ⟨hk, hm⟩))
        | sub hm hat => exact .sub hm hat
    · simp [Store.move, Store.set, hne.symm]
    · simp [Store.move, Store.set, h1, h2]

/-! ## Examples -/

namespace Ex

/-- `task a{…}, b{…};` on the stack (1 and 2), where `b` refers to `a` as `f` says -/
def asmStore (f : Task → Task) : Store := fun t =>
  if t = 1 then plain else if t = 2 then f plain else plain

/-- `ts.tasks["a"] = std::move(a); ts.tasks["b"] = std::move(b);` -/
def asm (f : Task → Task) : TaskSet × Store :=
  let r := (TaskSet.mk [] []).putTask "a".toList 1 11 (asmStore f)
  r.1.putTask "b".toList 2 12 r.2

def asmEnv (f : Task → Task) : BEnv :=
  { store := (asm f).2, alloc := fun k => 100 + k, rehash := fun _ => false }

def asmSet : TaskSet := .mk [("a".toList, 11), ("b".toList, 12)] []

theorem asm_set (f : Task → Task) : (asm f).1 = asmSet := rfl

def runAfter1 (t : Task) : Task := { t with runAfter := [1] }
def dependsOn1 (t : Task) : Task := { t with dependsOn := [1] }


theorem asmSet_at {p t} (h : At asmSet p t) : (p, t) ∈ [(["a".toList], 11), (["b".toList], 12)] := by
  have := (paths_at _ _ _).2 h
  have he : paths asmSet = [(["a".toList], 11), (["b".toList], 12)] := by decide +kernel
  rwa [he] at this

theorem asmSet_wf : asmSet.WF := by
  refine ⟨.mk (by decide +kernel) (by simp) (by simp), fun p q t hp hq => ?_⟩
  have h1 := asmSet_at hp
  have h2 := asmSet_at hq
  simp only [List.mem_cons, List.not_mem_nil, or_false, Prod.mk.injEq] at h1 h2
  rcases h1 with ⟨rfl, rfl⟩ | ⟨rfl, rfl⟩ <;>
    rcases h2 with ⟨rfl, h⟩ | ⟨rfl, h⟩ <;> first | rfl | (exact absurd h (by decide))

theorem asmBuildEnv (f : Task → Task) (hf : ∀ d ∈ (f plain).dependsOn, d = 1) :
    BuildEnv (asmEnv f) Dag.empty asmSet [1, 11, 12] [12, 11] id where
  set := asmSet_wf
  dag := ⟨by simp [Dag.empty], by simp [Dag.empty]⟩
  allocInj := fun i j h => by simp [asmEnv] at h; omega
  allocFresh := by simp [Dag.empty]
  closed := fun t ht d hd => by
    simp only [List.mem_cons, List.not_mem_nil, or_false] at ht
    rcases ht with rfl | rfl | rfl
    · have : d ∈ ([] : List TaskId) := hd
      cases this
    · have : d ∈ ([] : List TaskId) := hd
      cases this
    · have : d ∈ (f plain).dependsOn := hd
      simp [hf d this]
  univ := fun t ⟨p, hp⟩ => by
    have h1 := asmSet_at hp
    simp only [List.mem_cons, List.not_mem_nil, or_false, Prod.mk.injEq] at h1 ⊢
    rcases h1 with ⟨-, rfl⟩ | ⟨-, rfl⟩ <;> simp
  visit := fun t ⟨p, hp⟩ => by
    have h1 := asmSet_at hp
    simp only [List.mem_cons, List.not_mem_nil, or_false, Prod.mk.injEq] at h1 ⊢
    rcases h1 with ⟨-, rfl⟩ | ⟨-, rfl⟩ <;> simp
  order := fun l => List.Perm.refl l

def asmSt (f : Task → Task) : BSt :=
  match insertSet (asmEnv f) 4 Dag.empty asmSet [] [12, 11] id with
  | .ok s => s
  | _ => { dag := Dag.empty, tmp := [], index := [] }

theorem asm_run (f : Task → Task) (hf : ∀ d ∈ (f plain).dependsOn, d = 1)
    (hs : insertSet (asmEnv f) 4 Dag.empty asmSet [] [12, 11] id = .ok (asmSt f)) :
    Run (asmEnv f) asmSet [1, 11, 12] [12, 11] id [] (asmSt f) :=
  ⟨asmBuildEnv f hf, ⟨4, by decide, hs⟩⟩

end Ex

/-- **C98** is false: `b` shall run after `a`, and the two are moved into the set afterwards.  The dag
has no edge, and `b` is executed first. -/
theorem C98_counterexample : ∃ (st : Store) (ts : TaskSet) (E : BEnv) (univ visit : List TaskId)
    (order : List TaskId → List TaskId) (s : BSt),
    1 ∈ (st 2).runAfter ∧
    (ts, E.store) = (let r := (TaskSet.mk [] []).putTask "a".toList 1 11 st
      r.1.putTask "b".toList 2 12 r.2) ∧
    Run E ts univ visit order [] s ∧ s.dag.edges = [] ∧
    ∃ ms, (exec (execCfg E.store s.dag 0) ms).phase = .finished ∧
      (exec (execCfg E.store s.dag 0) ms).erec.runs.map RunRecord.t = [12, 11] := by
  refine ⟨Ex.asmStore Ex.runAfter1, Ex.asmSet, Ex.asmEnv Ex.runAfter1, _, _, _, _, by decide, rfl,
    Ex.asm_run Ex.runAfter1 (by decide) rfl, by decide +kernel, List.replicate 16 .ctl, by decide +kernel,
    by decide +kernel⟩

/-- with `depends_on` instead, the hypotheses of `C98_moved_ub` hold: the object that was moved away is
scheduled, without a name -/
example : Run (Ex.asmEnv Ex.dependsOn1) Ex.asmSet [1, 11, 12] [12, 11] id [] (Ex.asmSt Ex.dependsOn1) ∧
    1 ∈ ((Ex.asm Ex.dependsOn1).2 12).dependsOn ∧ ((Ex.asm Ex.dependsOn1).2 1).job = none ∧
    (Ex.asmSt Ex.dependsOn1).dag.nodes.map (fun n =>
      ((Ex.asmSt Ex.dependsOn1).dag.name n, (Ex.asmSt Ex.dependsOn1).dag.task n)) =
      [("//a".toList, 11), ([], 1), ("//b".toList, 12)] ∧
    (exec (execCfg (Ex.asm Ex.dependsOn1).2 (Ex.asmSt Ex.dependsOn1).dag 0) [.ctl]).phase = .ub :=
  ⟨Ex.asm_run _ (by decide) rfl, by decide, rfl, by decide +kernel, by decide +kernel⟩

/-- a set made by a function is put below `lib` (what was there is gone); the tasks keep their addresses -/
example : forEachTask ((TaskSet.mk [("app".toList, 7)] [("doc".toList, .mk [("m".toList, 8)] []),
      ("lib".toList, .mk [("old".toList, 9)] [])]).putSet "lib".toList Ex.asmSet) =
    [("//app".toList, 7), ("//doc/m".toList, 8), ("//lib/a".toList, 11), ("//lib/b".toList, 12)] := by
  decide +kernel

/-- hypotheses of `C98_replace` and `C98_add` -/
example : At Ex.asmSet ["a".toList] 11 ∧ (∀ t, ¬ At Ex.asmSet ["c".toList] t) ∧
    forEachTask (Ex.asmSet.putTask "a".toList 5 6 Ex.store).1 = forEachTask Ex.asmSet ∧
    forEachTask (Ex.asmSet.putTask "c".toList 5 6 Ex.store).1 =
      [("//a".toList, 11), ("//b".toList, 12), ("//c".toList, 6)] := by
  refine ⟨.here (by simp), fun t h => ?_, by decide +kernel, by decide +kernel⟩
  have := Ex.asmSet_at h
  simp only [List.mem_cons, List.not_mem_nil, or_false, Prod.mk.injEq] at this
  rcases this with ⟨h, _⟩ | ⟨h, _⟩ <;> exact absurd h (by decide +kernel)

namespace Ex

/-- `b` depends on `a` by its final address; `app` depends on `b` -/
def wholeStore : Store := fun t =>
  if t = 12 then { plain with dependsOn := [11] } else if t = 7 then { plain with dependsOn := [12] }
  else plain

/-- `whole.sets["lib"] = std::move(part)` -/
def whole : TaskSet := (TaskSet.mk [("app".toList, 7)] []).putSet "lib".toList asmSet

def wholeEnv : BEnv := { store := wholeStore, alloc := fun k => 100 + k, rehash := fun _ => false }

theorem whole_at {p t} (h : At whole p t) : (p, t) ∈ [(["app".toList], 7),
    (["lib".toList, "a".toList], 11), (["lib".toList, "b".toList], 12)] := by
  have := (paths_at _ _ _).2 h
  have he : paths whole = [(["app".toList], 7),
    (["lib".toList, "a".toList], 11), (["lib".toList, "b".toList], 12)] := by decide +kernel
  rwa [he] at this

theorem whole_wf : whole.WF := by
  refine C98_wf _ _ _ ?_ asmSet_wf ?_
  · refine ⟨.mk (by simp) (by simp) (by simp), fun p q t hp hq => ?_⟩
    have h1 := (paths_at _ _ _).2 hp
    have h2 := (paths_at _ _ _).2 hq
    have he : paths (TaskSet.mk [("app".toList, 7)] []) = [(["app".toList], 7)] := by decide +kernel
    rw [he] at h1 h2
    simp only [List.mem_singleton, Prod.mk.injEq] at h1 h2
    rw [h1.1, h2.1]
  · rintro t ⟨p, hp⟩ ⟨q, hq⟩
    have h1 := (paths_at _ _ _).2 hp
    have he : paths (TaskSet.mk [("app".toList, 7)] []) = [(["app".toList], 7)] := by decide +kernel
    rw [he] at h1
    simp only [List.mem_singleton, Prod.mk.injEq] at h1
    have h2 := asmSet_at hq
    simp [h1.2] at h2

theorem wholeDeps {t d : TaskId} (h : DependsOn wholeStore t d) : d = 11 ∨ d = 12 := by
  simp only [DependsOn, wholeStore] at h
  split at h
  · simp at h; exact .inl h
  · split at h
    · simp at h; exact .inr h
    · simp [plain] at h

theorem wholeBuildEnv : BuildEnv wholeEnv Dag.empty whole [7, 11, 12] [7, 11, 12] id where
  set := whole_wf
  dag := ⟨by simp [Dag.empty], by simp [Dag.empty]⟩
  allocInj := fun i j h => by simp [wholeEnv] at h; omega
  allocFresh := by simp [Dag.empty]
  closed := fun t ht d hd => by rcases wholeDeps hd with rfl | rfl <;> simp
  univ := fun t ⟨p, hp⟩ => by
    have h1 := whole_at hp
    simp only [List.mem_cons, List.not_mem_nil, or_false, Prod.mk.injEq] at h1
    rcases h1 with ⟨-, rfl⟩ | ⟨-, rfl⟩ | ⟨-, rfl⟩ <;> simp
  visit := fun t ⟨p, hp⟩ => by
    have h1 := whole_at hp
    simp only [List.mem_cons, List.not_mem_nil, or_false, Prod.mk.injEq] at h1
    rcases h1 with ⟨-, rfl⟩ | ⟨-, rfl⟩ | ⟨-, rfl⟩ <;> simp
  order := fun l => List.Perm.refl l

theorem partBuildEnv : BuildEnv wholeEnv Dag.empty asmSet [11, 12] [11, 12] id where
  set := asmSet_wf
  dag := ⟨by simp [Dag.empty], by simp [Dag.empty]⟩
  allocInj := fun i j h => by simp [wholeEnv] at h; omega
  allocFresh := by simp [Dag.empty]
  closed := fun t ht d hd => by rcases wholeDeps hd with rfl | rfl <;> simp
  univ := fun t ⟨p, hp⟩ => by
    have h1 := asmSet_at hp
    simp only [List.mem_cons, List.not_mem_nil, or_false, Prod.mk.injEq] at h1
    rcases h1 with ⟨-, rfl⟩ | ⟨-, rfl⟩ <;> simp
  visit := fun t ⟨p, hp⟩ => by
    have h1 := asmSet_at hp
    simp only [List.mem_cons, List.not_mem_nil, or_false, Prod.mk.injEq] at h1
    rcases h1 with ⟨-, rfl⟩ | ⟨-, rfl⟩ <;> simp
  order := fun l => List.Perm.refl l

def wholeSt : BSt :=
  match insertSet wholeEnv 4 Dag.empty whole [] [7, 11, 12] id with
  | .ok s => s
  | _ => { dag := Dag.empty, tmp := [], index := [] }

def partSt : BSt :=
  match insertSet wholeEnv 4 Dag.empty asmSet [] [11, 12] id with
  | .ok s => s
  | _ => { dag := Dag.empty, tmp := [], index := [] }

end Ex

/-- both runs of `C98_edges`, and the executions of `C98_results` -/
example : Run Ex.wholeEnv Ex.asmSet [11, 12] [11, 12] id [] Ex.partSt ∧
    Run Ex.wholeEnv Ex.whole [7, 11, 12] [7, 11, 12] id [] Ex.wholeSt ∧
    Finished Ex.wholeStore Ex.asmSet [] (exec (execCfg Ex.wholeStore Ex.partSt.dag 0)
      (List.replicate 16 .ctl)).erec.runs ∧
    Finished Ex.wholeStore Ex.whole [] (exec (execCfg Ex.wholeStore Ex.wholeSt.dag 0)
      (List.replicate 21 .ctl)).erec.runs ∧
    (exec (execCfg Ex.wholeStore Ex.partSt.dag 0) (List.replicate 16 .ctl)).erec.runs.map
      (fun r => (r.t, r.status)) = [(11, .ok), (12, .ok)] ∧
    ∀ t d, Selected Ex.wholeStore Ex.asmSet [] t → d ∈ (Ex.wholeStore t).invalidatedBy →
      Selected Ex.wholeStore Ex.whole [] d → Selected Ex.wholeStore Ex.asmSet [] d := by
  have h1 : Run Ex.wholeEnv Ex.asmSet [11, 12] [11, 12] id [] Ex.partSt :=
    ⟨Ex.partBuildEnv, 4, by decide, rfl⟩
  have h2 : Run Ex.wholeEnv Ex.whole [7, 11, 12] [7, 11, 12] id [] Ex.wholeSt :=
    ⟨Ex.wholeBuildEnv, 4, by decide, rfl⟩
  refine ⟨h1, h2, ⟨_, _, _, _, _, 0, _, rfl, h1, by decide +kernel, rfl⟩,
    ⟨_, _, _, _, _, 0, _, rfl, h2, by decide +kernel, rfl⟩, by decide +kernel, fun t d _ hd => ?_⟩
  simp only [Ex.wholeStore] at hd
  split at hd
  · simp [Ex.plain] at hd
  · split at hd <;> simp [Ex.plain] at hd

end Joque
