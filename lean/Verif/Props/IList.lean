import Verif.Proof.IList3

/-! # The intrusive list is a sequence (C28), backward access (C29) -/

namespace Joque

/-- **C28**.  Any program that respects the contracts (`LOk`) runs without touching a dead header,
and afterwards iterating any list gives exactly the sequence the operations mean, in order;
`empty()` and `front()` agree with it; exactly the right objects are alive. -/
theorem C28_sequence (os : List LOp) (hok : LOk Seqs.init os) (fuel : Nat)
    (hf : os.length < fuel) :
    ∃ s, LS.empty.ops fuel os = some s ∧
      ∀ l, (LOp.run Seqs.init os).lists l →
        s.toList fuel l = some ((LOp.run Seqs.init os).seq l) ∧
        s.empty' l = some ((LOp.run Seqs.init os).seq l).isEmpty ∧
        s.front l = ((LOp.run Seqs.init os).seq l).head? := by
  obtain ⟨s, e, h⟩ := LInv.ops (fuel := fuel) os LS.empty Seqs.init 0 LInv.init hok
    (fun _ => Nat.le_refl 0) (by omega)
  refine ⟨s, e, fun l hl => ⟨h.toList hl ?_, ?_, ?_⟩⟩
  · have : ∀ (os : List LOp) (a : Seqs) (n : Nat), (∀ l, (a.seq l).length ≤ n) →
        ∀ l, ((LOp.run a os).seq l).length ≤ n + os.length := by
      intro os
      induction os with
      | nil => intro a n h l; exact h l
      | cons o os ih =>
        intro a n h l
        have := ih (o.apply a) (n + 1) (apply_length a o n h) l
        rw [List.length_cons]
        show ((LOp.run (o.apply a) os).seq l).length ≤ _
        omega
    have := this os Seqs.init 0 (fun _ => Nat.le_refl 0) l
    omega
  · unfold LS.empty'
    rw [LS.getNx, if_pos ((h.liveH l).2 hl), (h.nx_live hl).1]
    cases (LOp.run Seqs.init os).seq l <;> rfl
  · unfold LS.front
    rw [h.begin' hl, Option.bind_some]
    cases hs : (LOp.run Seqs.init os).seq l with
    | nil => rfl
    | cons x xs =>
      show (if s.live (.node x) = true then some x else none) = some x
      rw [if_pos ((h.liveN x).2 (h.mem l x (by rw [hs]; simp)))]

/-- **C28**, lifetimes: the headers alive are exactly those of the objects alive. -/
theorem C28_alive (os : List LOp) (hok : LOk Seqs.init os) (fuel : Nat) (hf : os.length < fuel)
    (s : LS) (hs : LS.empty.ops fuel os = some s) :
    (∀ l, s.live (.head l) = true ↔ (LOp.run Seqs.init os).lists l) ∧
    (∀ n, s.live (.node n) = true ↔ (LOp.run Seqs.init os).nodes n) := by
  obtain ⟨s', e, h⟩ := LInv.ops (fuel := fuel) os LS.empty Seqs.init 0 LInv.init hok
    (fun _ => Nat.le_refl 0) (by omega)
  rw [hs] at e
  cases e
  exact ⟨h.liveH, h.liveN⟩

/-- **C28** is about programs that keep to the rules (`LOk`).  Otherwise behaviour is undefined: using an
iterator to a destroyed element, destroying it again, or destroying an element (or putting one behind it)
whose neighbour is gone. -/
theorem C28_dead (s : LS) (h : Ptr) (n : Nat) :
    (s.live (.node n) = false → s.inc (some n) = none ∧ s.dec (some n) = none ∧
      s.deref (some n) = none ∧ s.deleteNode n = none ∧ s.linkNext h n = none) ∧
    (s.live h = false → s.destruct h = none ∧ s.linkNext h n = none ∧
      ∀ h', h' ≠ h → s.moveAssign h h' = none ∧ s.moveAssign h' h = none) ∧
    (s.nx h ≠ .null → s.live (s.nx h) = false → s.destruct h = none ∧ s.linkNext h n = none) ∧
    (s.pv h ≠ .null → s.live (s.pv h) = false → s.destruct h = none) := by
  refine ⟨fun hd => ⟨?_, ?_, ?_, ?_, ?_⟩, fun hd => ⟨?_, ?_, fun h' hne => ⟨?_, ?_⟩⟩, fun h0 hd => ⟨?_, ?_⟩,
    fun h0 hd => ?_⟩
  · simp [LS.inc, LS.getNx, hd]
  · simp [LS.dec, LS.getPv, hd]
  · simp [LS.deref, hd]
  · simp [LS.deleteNode, LS.destruct, LS.getNx, hd]
  · cases hh : s.live h <;> simp [LS.linkNext, LS.getNx, LS.setNx, hd, hh]
  · simp [LS.destruct, LS.getNx, hd]
  · simp [LS.linkNext, LS.getNx, hd]
  · cases hh : s.live h' <;> simp [LS.moveAssign, LS.getNx, LS.setNx, hd, hh, Ne.symm hne]
  · simp [LS.moveAssign, LS.getNx, hd, hne]
  · cases hh : s.live h <;> simp [LS.destruct, LS.getNx, LS.getPv, LS.setPv?, LS.setPv, hd, hh, h0]
  · cases hh : s.live h <;> cases hn : s.live (.node n) <;>
      simp [LS.linkNext, LS.getNx, LS.setNx, LS.setPv?, LS.setPv, hd, hh, h0, hn]
  · cases hh : s.live h with
    | false => simp [LS.destruct, LS.getNx, hh]
    | true =>
      unfold LS.destruct
      simp only [LS.getNx, LS.getPv, hh, if_true, Option.bind_some]
      cases hs : s.setPv? (s.nx h) (s.pv h) with
      | none => rfl
      | some s' =>
        have hl : s'.live = s.live ∧ (s'.pv h = s.pv h ∨ s.nx h = h) := by
          unfold LS.setPv? LS.setPv at hs
          split at hs
          · cases hs; exact ⟨rfl, .inl rfl⟩
          · split at hs
            · cases hs
              refine ⟨rfl, ?_⟩
              by_cases hx : h = s.nx h
              · exact .inr hx.symm
              · left; simp [fset, hx]
            · cases hs
        have hp : s'.pv h = s.pv h := by
          rcases hl.2 with h1 | h1
          · exact h1
          · rw [h1] at hs
            unfold LS.setPv? LS.setPv at hs
            split at hs
            · cases hs; rfl
            · cases hs; simp [fset]
        simp [hl.1, hh, hp, LS.setNx?, LS.setNx, h0, hd]

/-- an element is destroyed twice -/
example : (LS.empty.ops 9 [.newList 0, .emplaceFront 0 1, .deleteNode 1]).isSome = true ∧
    (LS.empty.ops 9 [.newList 0, .emplaceFront 0 1, .deleteNode 1, .deleteNode 1]).isNone = true := by
  decide +kernel

/-- **C28**, an element is in at most one list (of one header) and there only once. -/
theorem C28_disjoint (os : List LOp) (hok : LOk Seqs.init os) :
    (∀ l, ((LOp.run Seqs.init os).seq l).Nodup) ∧
    ∀ l l' x, x ∈ (LOp.run Seqs.init os).seq l → x ∈ (LOp.run Seqs.init os).seq l' → l = l' := by
  obtain ⟨s', e, h⟩ := LInv.ops (fuel := os.length + 1) os LS.empty Seqs.init 0 LInv.init hok
    (fun _ => Nat.le_refl 0) (by omega)
  exact ⟨h.nodup, h.disj⟩

namespace Ex

/-- two lists, linking, deletion, moving -/
def lprog : List LOp :=
  [.newList 1, .newList 2, .emplaceFront 1 10, .emplaceFront 1 11, .emplaceFront 1 12,
   .newNode 20, .linkFront 2 20, .deleteNode 11, .emplaceFront 2 21, .moveList 3 1,
   .clearIf 2 (· == 20), .destroyList 1]

end Ex

theorem Ex.lprog_ok : LOk Seqs.init Ex.lprog := by
  simp [LOk, LOp.Pre, LOp.apply, Seqs.init, Ex.lprog, Seqs.Loose, fset]
  intro l; by_cases h : l = 1 <;> simp [h]

example : ((LS.empty.ops 13 Ex.lprog).bind (·.toList 13 3)) = some [12, 10] ∧
    ((LS.empty.ops 13 Ex.lprog).bind (·.toList 13 2)) = some [21] ∧
    (LOp.run Seqs.init Ex.lprog).seq 3 = [12, 10] := by decide +kernel

/-! ## C29 -/

theorem LInv.dec {s : LS} {a : Seqs} (h : LInv s a) {l i : Nat} (hi : i + 1 < (a.seq l).length) :
    s.dec (some ((a.seq l)[i + 1])) = some (some ((a.seq l)[i]'(by omega))) := by
  have hx : (a.seq l)[i + 1] ∈ a.seq l := List.getElem_mem _
  have hl := h.alive hx
  have hsp : a.seq l = (a.seq l).take i ++ (a.seq l)[i]'(by omega) :: (a.seq l)[i + 1] ::
      (a.seq l).drop (i + 2) := by
    rw [← List.drop_eq_getElem_cons hi, ← List.drop_eq_getElem_cons (by omega),
      List.take_append_drop]
  have hc := (h.chain l hl).1
  have h2 : Chain s (.node ((a.seq l)[i]'(by omega))) ((a.seq l)[i + 1] :: (a.seq l).drop (i + 2)) := by
    have := hc
    rw [hsp] at this
    exact this.split.2
  show (s.getPv (.node (a.seq l)[i + 1])).map Ptr.getNode = _
  rw [LS.getPv, if_pos ((h.liveN _).2 (h.mem l _ hx)), h2.2.1]
  rfl

/-- **C29_partial**: decrementing an iterator that is not at the first element gives the previous
element. -/
theorem C29_partial (os : List LOp) (hok : LOk Seqs.init os) (fuel : Nat) (hf : os.length < fuel)
    (s : LS) (hs : LS.empty.ops fuel os = some s) (l i : Nat)
    (hi : i + 1 < ((LOp.run Seqs.init os).seq l).length) :
    s.dec (some (((LOp.run Seqs.init os).seq l)[i + 1]))
      = some (some (((LOp.run Seqs.init os).seq l)[i]'(by omega))) := by
  obtain ⟨s', e, h⟩ := LInv.ops (fuel := fuel) os LS.empty Seqs.init 0 LInv.init hok
    (fun _ => Nat.le_refl 0) (by omega)
  rw [hs] at e
  cases e
  exact h.dec hi

/-- **C29**, at the first element decrementing gives the end iterator. -/
theorem C29_first (os : List LOp) (hok : LOk Seqs.init os) (fuel : Nat) (hf : os.length < fuel)
    (s : LS) (hs : LS.empty.ops fuel os = some s) (l x : Nat) (xs : List Nat)
    (hx : (LOp.run Seqs.init os).seq l = x :: xs) : s.dec (some x) = some LS.end' := by
  obtain ⟨s', e, h⟩ := LInv.ops (fuel := fuel) os LS.empty Seqs.init 0 LInv.init hok
    (fun _ => Nat.le_refl 0) (by omega)
  rw [hs] at e
  cases e
  have hm : x ∈ (LOp.run Seqs.init os).seq l := by rw [hx]; simp
  have hc := (h.chain l (h.alive hm)).1
  rw [hx] at hc
  show (s.getPv (.node x)).map Ptr.getNode = _
  rw [LS.getPv, if_pos ((h.liveN _).2 (h.mem l _ hm)), hc.2.1]
  rfl

/-- **C29** is false for `back()`: it dereferences null on every list, however long. -/
theorem C29_back_ub (s : LS) (l : Nat) : s.back l = none := rfl

/-- **C29**: a list with one element, and `back()` is undefined. -/
theorem C29_counterexample : ∃ os s, LOk Seqs.init os ∧ LS.empty.ops 3 os = some s ∧
    (LOp.run Seqs.init os).lists 1 ∧ (LOp.run Seqs.init os).seq 1 = [10] ∧ s.back 1 = none := by
  refine ⟨[.newList 1, .emplaceFront 1 10],
    ((LS.empty.construct (.head 1)).construct (.node 10) |>.linkNext (.head 1) 10).get
      (by decide +kernel), ?_, ?_, ?_, ?_, rfl⟩
  · simp [LOk, LOp.Pre, LOp.apply, Seqs.init]
  · simp [LS.ops, LS.op]
  · simp [LOp.run, LOp.apply]
  · rfl

end Joque
