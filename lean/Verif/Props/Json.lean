import Verif.Model.Json
import Verif.Props.Format

/-! # JSON export (C44) -/

namespace Joque

/-- the member `k` of an object -/
def member (k : Str) : List (Str × Json) → Option Json
  | [] => none
  | (k', v) :: l => if k' = k then some v else member k l

def Json.get (j : Json) (k : Str) : Option Json :=
  match j with
  | .obj l => member k l
  | _ => none

theorem get_set_same (j : Json) (k : Str) (v : Json) : (j.set k v).get k = some v := by
  cases j with
  | obj l =>
    show member k (setMember k v l) = some v
    induction l with
    | nil => simp [setMember, member]
    | cons p l ih =>
      unfold setMember
      split
      · simp [member]
      · next h => rw [member, if_neg h]; exact ih
  | _ => simp [Json.set, Json.get, member]

theorem get_set_ne (j : Json) (k k' : Str) (v : Json) (hj : j = .null ∨ ∃ l, j = .obj l) (h : k ≠ k') :
    (j.set k v).get k' = j.get k' := by
  rcases hj with rfl | ⟨l, rfl⟩
  · simp [Json.set, Json.get, member, h]
  · show member k' (setMember k v l) = member k' l
    induction l with
    | nil => simp [setMember, member, h]
    | cons p l ih =>
      obtain ⟨a, b⟩ := p
      unfold setMember
      split
      · next h' =>
        have : a ≠ k' := fun e => h (h'.symm.trans e)
        rw [member, if_neg h, member, if_neg this]
      · rw [member, member, ih]

theorem set_obj (j : Json) (k : Str) (v : Json) : (j.set k v) = .null ∨ ∃ l, (j.set k v) = .obj l := by
  right
  cases j <;> exact ⟨_, rfl⟩

theorem chunk_members (c : Chunk) :
    c.toJson.get "type".toList = some (.num c.type.toInt) ∧
    c.toJson.get "data".toList = some (.str c.data) := by
  unfold Chunk.toJson
  refine ⟨?_, get_set_same _ _ _⟩
  rw [get_set_ne _ _ _ _ (set_obj _ _ _) (by decide +kernel)]
  exact get_set_same _ _ _

/-- **C44**, members of the object of a task. -/
theorem C44_run_members (fmt : Int → Str) (clock : Nat → Int) (r : RunRecord) :
    let j := r.toJson fmt clock
    j.get "name".toList = some (.str r.name) ∧
    j.get "status".toList = some (.num r.status.toInt) ∧
    j.get "retcode".toList = some (.num r.retcode) ∧
    j.get "start".toList = some (.str (fmt (clock r.start))) ∧
    j.get "end".toList = some (.str (fmt (clock r.end))) ∧
    j.get "output".toList = some (.arr (r.output.map Chunk.toJson)) := by
  intro j
  have ne : ∀ (j : Json) (k k' : Str) (v v' : Json) (k0 : Str), k ≠ k' →
      ((j.set k0 v').set k v).get k' = (j.set k0 v').get k' :=
    fun j k k' v v' k0 h => get_set_ne _ _ _ _ (set_obj _ _ _) h
  refine ⟨?_, ?_, ?_, ?_, ?_, get_set_same _ _ _⟩
  · show Json.get (RunRecord.toJson fmt clock r) _ = _
    unfold RunRecord.toJson
    rw [ne _ _ _ _ _ _ (by decide +kernel), ne _ _ _ _ _ _ (by decide +kernel),
      ne _ _ _ _ _ _ (by decide +kernel), ne _ _ _ _ _ _ (by decide +kernel),
      ne _ _ _ _ _ _ (by decide +kernel)]
    exact get_set_same _ _ _
  · show Json.get (RunRecord.toJson fmt clock r) _ = _
    unfold RunRecord.toJson
    rw [ne _ _ _ _ _ _ (by decide +kernel), ne _ _ _ _ _ _ (by decide +kernel),
      ne _ _ _ _ _ _ (by decide +kernel), ne _ _ _ _ _ _ (by decide +kernel)]
    exact get_set_same _ _ _
  · show Json.get (RunRecord.toJson fmt clock r) _ = _
    unfold RunRecord.toJson
    rw [ne _ _ _ _ _ _ (by decide +kernel), ne _ _ _ _ _ _ (by decide +kernel),
      ne _ _ _ _ _ _ (by decide +kernel)]
    exact get_set_same _ _ _
  · show Json.get (RunRecord.toJson fmt clock r) _ = _
    unfold RunRecord.toJson
    rw [ne _ _ _ _ _ _ (by decide +kernel), ne _ _ _ _ _ _ (by decide +kernel)]
    exact get_set_same _ _ _
  · show Json.get (RunRecord.toJson fmt clock r) _ = _
    unfold RunRecord.toJson
    rw [ne _ _ _ _ _ _ (by decide +kernel)]
    exact get_set_same _ _ _

/-- **C44**, members of the object of a chunk of output. -/
theorem C44_chunk_members (c : Chunk) :
    c.toJson.get "type".toList = some (.num c.type.toInt) ∧
    c.toJson.get "data".toList = some (.str c.data) := chunk_members c

/-- **C44**, the numbers of the enumerators: their places in the declarations. -/
theorem C44_codes (s : Status) (t : ChunkType) :
    ([.ok, .skip, .depf, .fail] : List Status)[s.toInt.toNat]? = some s ∧ 0 ≤ s.toInt ∧
    ([.error, .standard] : List ChunkType)[t.toInt.toNat]? = some t ∧ 0 ≤ t.toInt := by
  cases s <;> cases t <;> decide

/-- **C44**, members of the object of an execution: one counter per status, the total, the tasks in order. -/
theorem C44_exec_members (fmt : Int → Str) (clock : Nat → Int) (er : ExecRecord) :
    let j := er.toJson fmt clock
    (∀ st : Status, j.get st.name = some (.num (er.stats.get st))) ∧
    j.get "total_count".toList = some (.num er.totalCount) ∧
    j.get "runs".toList = some (.arr (er.runs.map (RunRecord.toJson fmt clock))) := by
  intro j
  have ne : ∀ (j : Json) (k k' : Str) (v v' : Json) (k0 : Str), k ≠ k' →
      ((j.set k0 v').set k v).get k' = (j.set k0 v').get k' :=
    fun j k k' v v' k0 h => get_set_ne _ _ _ _ (set_obj _ _ _) h
  refine ⟨?_, ?_, get_set_same _ _ _⟩
  · intro st
    show Json.get (ExecRecord.toJson fmt clock er) _ = _
    unfold ExecRecord.toJson
    cases st
    · rw [ne _ _ _ _ _ _ (by decide +kernel), ne _ _ _ _ _ _ (by decide +kernel),
        ne _ _ _ _ _ _ (by decide +kernel), ne _ _ _ _ _ _ (by decide +kernel),
        ne _ _ _ _ _ _ (by decide +kernel)]
      exact get_set_same _ _ _
    · rw [ne _ _ _ _ _ _ (by decide +kernel), ne _ _ _ _ _ _ (by decide +kernel),
        ne _ _ _ _ _ _ (by decide +kernel), ne _ _ _ _ _ _ (by decide +kernel)]
      exact get_set_same _ _ _
    · rw [ne _ _ _ _ _ _ (by decide +kernel), ne _ _ _ _ _ _ (by decide +kernel),
        ne _ _ _ _ _ _ (by decide +kernel)]
      exact get_set_same _ _ _
    · rw [ne _ _ _ _ _ _ (by decide +kernel), ne _ _ _ _ _ _ (by decide +kernel)]
      exact get_set_same _ _ _
  · show Json.get (ExecRecord.toJson fmt clock er) _ = _
    unfold ExecRecord.toJson
    rw [ne _ _ _ _ _ _ (by decide +kernel)]
    exact get_set_same _ _ _

theorem map_inj_of {α β : Type} {f g : α → β} {P : α → α → Prop} (h : ∀ a b, f a = g b → P a b) :
    ∀ l l' : List α, l.map f = l'.map g → List.Forall₂ P l l'
  | [], [], _ => .nil
  | [], _ :: _, e => by simp at e
  | _ :: _, [], e => by simp at e
  | a :: l, b :: l', e => by
    simp only [List.map_cons, List.cons.injEq] at e
    exact .cons (h a b e.1) (map_inj_of h l l' e.2)

theorem chunk_inj (c c' : Chunk) (h : c.toJson = c'.toJson) : c = c' := by
  obtain ⟨a1, a2⟩ := chunk_members c
  obtain ⟨b1, b2⟩ := chunk_members c'
  rw [h] at a1 a2
  rw [a1] at b1
  rw [a2] at b2
  simp only [Option.some.injEq, Json.num.injEq, Json.str.injEq] at b1 b2
  obtain ⟨t, d⟩ := c
  obtain ⟨t', d'⟩ := c'
  simp only at b1 b2
  subst b2
  cases t <;> cases t' <;> first | rfl | (exact absurd b1 (by decide))

/-- the same apart from the reference to the task -/
structure SameRun (clock clock' : Nat → Int) (r r' : RunRecord) : Prop where
  name : r.name = r'.name
  status : r.status = r'.status
  retcode : r.retcode = r'.retcode
  start : clock r.start = clock' r'.start
  «end» : clock r.end = clock' r'.end
  output : r.output = r'.output

theorem run_inj (fmt : Int → Str) (clock clock' : Nat → Int)
    (hfmt : ∀ i j, fmt (clock i) = fmt (clock' j) → clock i = clock' j)
    (r r' : RunRecord) (h : r.toJson fmt clock = r'.toJson fmt clock') : SameRun clock clock' r r' := by
  obtain ⟨a1, a2, a3, a4, a5, a6⟩ := C44_run_members fmt clock r
  obtain ⟨b1, b2, b3, b4, b5, b6⟩ := C44_run_members fmt clock' r'
  rw [h] at a1 a2 a3 a4 a5 a6
  rw [a1] at b1; rw [a2] at b2; rw [a3] at b3; rw [a4] at b4; rw [a5] at b5; rw [a6] at b6
  simp only [Option.some.injEq, Json.num.injEq, Json.str.injEq, Json.arr.injEq] at b1 b2 b3 b4 b5 b6
  refine ⟨b1, ?_, b3, hfmt _ _ b4, hfmt _ _ b5, ?_⟩
  · cases h1 : r.status <;> cases h2 : r'.status <;> first | rfl | (rw [h1, h2] at b2; exact absurd b2 (by decide))
  · exact List.forall₂_eq_eq_eq ▸ map_inj_of chunk_inj _ _ b6

/-- **C44**.  Two executions with the same JSON have the same counters and total, and record by record the
same names, statuses, return codes, times and outputs.  (`{}` shows different time points differently:
`C108_json` has the actual format.) -/
theorem C44_injective (fmt : Int → Str) (clock clock' : Nat → Int)
    (hfmt : ∀ i j, fmt (clock i) = fmt (clock' j) → clock i = clock' j)
    (er er' : ExecRecord) (h : er.toJson fmt clock = er'.toJson fmt clock') :
    er.stats = er'.stats ∧ er.totalCount = er'.totalCount ∧
    List.Forall₂ (SameRun clock clock') er.runs er'.runs := by
  obtain ⟨a1, a2, a3⟩ := C44_exec_members fmt clock er
  obtain ⟨b1, b2, b3⟩ := C44_exec_members fmt clock' er'
  rw [h] at a1 a2 a3
  rw [a2] at b2; rw [a3] at b3
  have hs : ∀ st, er.stats.get st = er'.stats.get st := by
    intro st
    have := b1 st
    rw [a1 st] at this
    simp only [Option.some.injEq, Json.num.injEq] at this
    exact Int.ofNat.inj this
  simp only [Option.some.injEq, Json.num.injEq, Json.arr.injEq] at b2 b3
  refine ⟨?_, Int.ofNat.inj b2, map_inj_of (run_inj fmt clock clock' hfmt) _ _ b3⟩
  have h1 := hs .ok; have h2 := hs .skip; have h3 := hs .depf; have h4 := hs .fail
  rcases he : er.stats with ⟨a, b, c, d⟩
  rcases he' : er'.stats with ⟨a', b', c', d'⟩
  rw [he, he'] at h1 h2 h3 h4
  simp only [Stats.get] at h1 h2 h3 h4
  rw [h1, h2, h3, h4]

/-- The task itself is not exported: records that differ in it only give the same JSON. -/
theorem C44_task_not_exported (fmt : Int → Str) (clock : Nat → Int) (r : RunRecord) (t : TaskId) :
    ({ r with t := t } : RunRecord).toJson fmt clock = r.toJson fmt clock := rfl

/-- no other members -/
theorem C44_run_only (fmt : Int → Str) (clock : Nat → Int) (r : RunRecord) (k : Str)
    (hk : k ∉ ["name".toList, "status".toList, "retcode".toList, "start".toList, "end".toList,
      "output".toList]) : (r.toJson fmt clock).get k = none := by
  simp only [List.mem_cons, List.not_mem_nil, or_false, not_or] at hk
  obtain ⟨h1, h2, h3, h4, h5, h6⟩ := hk
  have ne : ∀ (j : Json) (k k' : Str) (v v' : Json) (k0 : Str), k ≠ k' →
      ((j.set k0 v').set k v).get k' = (j.set k0 v').get k' :=
    fun j k k' v v' k0 h => get_set_ne _ _ _ _ (set_obj _ _ _) h
  unfold RunRecord.toJson
  rw [ne _ _ _ _ _ _ (Ne.symm h6), ne _ _ _ _ _ _ (Ne.symm h5), ne _ _ _ _ _ _ (Ne.symm h4),
    ne _ _ _ _ _ _ (Ne.symm h3), ne _ _ _ _ _ _ (Ne.symm h2),
    get_set_ne _ _ _ _ (.inl rfl) (Ne.symm h1)]
  rfl

example : ∃ fmt : Int → Str, ∀ a b, fmt a = fmt b → a = b := by
  refine ⟨fun i => match i with
    | .ofNat n => List.replicate n 'x'
    | .negSucc n => '-' :: List.replicate n 'x', ?_⟩
  intro a b h
  cases a with
  | ofNat n =>
    cases b with
    | ofNat m =>
      have := congrArg List.length h
      simp only [List.length_replicate] at this
      rw [this]
    | negSucc m =>
      have : '-' ∈ List.replicate n 'x' := by
        replace h : List.replicate n 'x' = '-' :: List.replicate m 'x' := h
        rw [h]; simp
      exact absurd (List.eq_of_mem_replicate this) (by decide)
  | negSucc n =>
    cases b with
    | ofNat m =>
      have : '-' ∈ List.replicate m 'x' := by
        replace h : '-' :: List.replicate n 'x' = List.replicate m 'x' := h
        rw [← h]; simp
      exact absurd (List.eq_of_mem_replicate this) (by decide)
    | negSucc m =>
      have := congrArg List.length h
      simp only [List.length_cons, List.length_replicate, Nat.add_right_cancel_iff] at this
      rw [this]

end Joque
