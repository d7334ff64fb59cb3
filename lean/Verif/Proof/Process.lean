import Verif.Spec.Process

namespace Joque

theorem minOf_spec (f : Str → Int) (m : Str) (xs : List Str) :
    minOf f m xs ∈ m :: xs ∧ ∀ x ∈ m :: xs, f (minOf f m xs) ≤ f x := by
  induction xs generalizing m with
  | nil => simp [minOf]
  | cons y xs ih =>
    unfold minOf
    split
    · rename_i hlt
      obtain ⟨h1, h2⟩ := ih y
      refine ⟨List.mem_cons_of_mem _ h1, fun x hx => ?_⟩
      rcases List.mem_cons.1 hx with rfl | hx
      · have := h2 y (by simp); omega
      · exact h2 x hx
    · rename_i hlt
      obtain ⟨h1, h2⟩ := ih m
      refine ⟨?_, fun x hx => ?_⟩
      · rcases List.mem_cons.1 h1 with h | h
        · rw [h]; simp
        · exact List.mem_cons_of_mem _ (List.mem_cons_of_mem _ h)
      · rcases List.mem_cons.1 hx with rfl | hx
        · exact h2 x (by simp)
        · rcases List.mem_cons.1 hx with rfl | hx
          · have := h2 m (by simp); omega
          · exact h2 x (List.mem_cons_of_mem _ hx)

theorem maxOf_spec (f : Str → Int) (m : Str) (xs : List Str) :
    maxOf f m xs ∈ m :: xs ∧ ∀ x ∈ m :: xs, f x ≤ f (maxOf f m xs) := by
  induction xs generalizing m with
  | nil => simp [maxOf]
  | cons y xs ih =>
    unfold maxOf
    split
    · rename_i hlt
      obtain ⟨h1, h2⟩ := ih y
      refine ⟨List.mem_cons_of_mem _ h1, fun x hx => ?_⟩
      rcases List.mem_cons.1 hx with rfl | hx
      · have := h2 y (by simp); omega
      · exact h2 x hx
    · rename_i hlt
      obtain ⟨h1, h2⟩ := ih m
      refine ⟨?_, fun x hx => ?_⟩
      · rcases List.mem_cons.1 h1 with h | h
        · rw [h]; simp
        · exact List.mem_cons_of_mem _ (List.mem_cons_of_mem _ h)
      · rcases List.mem_cons.1 hx with rfl | hx
        · exact h2 x (by simp)
        · rcases List.mem_cons.1 hx with rfl | hx
          · have := h2 m (by simp); omega
          · exact h2 x (List.mem_cons_of_mem _ hx)

theorem writeTime_some {fs : FS} {p : Str} {f : PFile} (h : fs p = some f) : writeTime fs p = f.time := by
  unfold writeTime; rw [h]

theorem writeTime_none {fs : FS} {p : Str} (h : fs p = none) : writeTime fs p = 0 := by
  unfold writeTime; rw [h]

theorem retcodeCheck_none {fs : FS} {p : Process} (h : RetcodeOk fs p) : retcodeCheck fs p = none := by
  unfold retcodeCheck
  cases hf : p.retcodeFile with
  | none => rfl
  | some f =>
    obtain ⟨file, h1, h2⟩ := h f hf
    simp [h1, h2]

/-- the timestamp comparison, in terms of write times -/
theorem isInvalidated_times (tf : TimeFmt) (fs : FS) (p : Process) (hr : RetcodeOk fs p)
    (hi : p.input ≠ []) (ho : p.output ≠ []) :
    ∃ m ∈ p.output, (∀ o ∈ p.output, writeTime fs m ≤ writeTime fs o) ∧
      ((p.isInvalidated tf fs).invalidated = true ↔
        fs m = none ∨ ∃ i ∈ p.input, writeTime fs m ≤ writeTime fs i) := by
  unfold Process.isInvalidated
  rw [retcodeCheck_none hr]
  cases hout : p.output with
  | nil => exact absurd hout ho
  | cons o os =>
    cases hin : p.input with
    | nil => exact absurd hin hi
    | cons i is =>
      obtain ⟨h1, h2⟩ := minOf_spec (writeTime fs) o os
      obtain ⟨h3, h4⟩ := maxOf_spec (writeTime fs) i is
      refine ⟨_, h1, h2, ?_⟩
      cases hm : fs (minOf (writeTime fs) o os) with
      | none => simp [hm]
      | some f =>
        simp only [hm, Option.isNone_some, Bool.false_eq_true, if_false, decide_eq_true_eq,
          reduceCtorEq, false_or]
        constructor
        · intro h; exact ⟨_, h3, h⟩
        · rintro ⟨x, hx, h⟩; exact Int.le_trans h (h4 x hx)

theorem isDigit_not_ws {c : Char} (h : c.isDigit = true) : isWs c = false := by
  unfold isWs
  have : ∀ d : Char, d.isDigit = false → (decide (c = d)) = false := by
    intro d hd
    rw [decide_eq_false_iff_not]
    rintro rfl
    rw [h] at hd; cases hd
  simp only [this ' ' (by decide), this '\t' (by decide), this '\n' (by decide),
    this '\x0b' (by decide), this '\x0c' (by decide), this '\r' (by decide), Bool.or_self]

theorem takeWhile_all {α : Type} {p : α → Bool} {l : List α} (h : ∀ x ∈ l, p x = true) :
    l.takeWhile p = l := by
  induction l with
  | nil => rfl
  | cons x l ih =>
    rw [List.takeWhile_cons_of_pos (h x (by simp)), ih (fun y hy => h y (by simp [hy]))]

theorem toDigits_cons (n : Nat) : ∃ c cs, Nat.toDigits 10 n = c :: cs ∧
    ∀ x ∈ c :: cs, x.isDigit = true := by
  cases h : Nat.toDigits 10 n with
  | nil => exact absurd h Nat.toDigits_ne_nil
  | cons c cs =>
    exact ⟨c, cs, rfl, fun x hx =>
      Nat.isDigit_of_mem_toDigits (b := 10) (n := n) (by decide) (by decide) (by rw [h]; exact hx)⟩

theorem clampInt_id {i : Int} (h : IsInt i) : clampInt i = i := by
  unfold clampInt
  rw [if_neg (by have := h.1; omega), if_neg (by have := h.2; omega)]

/-- what is written is read back -/
theorem readInt_showInt {i : Int} (h : IsInt i) : readInt (showInt i) = i := by
  obtain ⟨c, cs, hd, hall⟩ := toDigits_cons i.natAbs
  have hc := hall c (by simp)
  have hv : Nat.ofDigitChars 10 (c :: cs) 0 = i.natAbs := by
    rw [← hd]; exact Nat.ofDigitChars_ten_toDigits
  have hne : ∀ d : Char, d.isDigit = false → (c :: cs).head? ≠ some d := by
    intro d hd h
    cases h
    rw [hc] at hd; cases hd
  unfold showInt
  split
  · rename_i hneg
    rw [hd]
    unfold readInt
    rw [List.dropWhile_cons_of_neg (by decide)]
    simp only [List.head?_cons, true_or, if_true, List.tail_cons]
    rw [takeWhile_all hall, hv]
    have : -(i.natAbs : Int) = i := by omega
    rw [this, clampInt_id h]
  · rename_i hneg
    rw [hd]
    unfold readInt
    rw [List.dropWhile_cons_of_neg (by rw [isDigit_not_ws hc]; simp)]
    have h1 := hne '-' (by decide)
    have h2 := hne '+' (by decide)
    simp only [h1, h2, or_self, if_false]
    rw [takeWhile_all hall, hv]
    have : (i.natAbs : Int) = i := by omega
    rw [this, clampInt_id h]

/-! ## the cases of `run` -/

theorem foldl_sink (cs : List (Bool × Str)) (r : RunResult) :
    cs.foldl RunResult.sink r = { r with output := r.output ++ written cs } := by
  induction cs generalizing r with
  | nil => simp [written]
  | cons c cs ih =>
    rw [List.foldl_cons, ih]
    obtain ⟨b, d⟩ := c
    cases b <;> simp [RunResult.sink, RunResult.insertStd, RunResult.insertErr, written]

theorem prun_start (os : POS) (fs : FS) (p : Process) (h : os.start.value ≠ 0) :
    p.run os fs = (.ret { retcode := some os.start.value
                          output := [⟨.error, if os.start.noent then notFoundMsg else os.start.msg⟩]
                          log := p.shown }, fs) := by
  unfold Process.run
  rw [if_pos h]; rfl

theorem prun_drain (os : POS) (fs : FS) (p : Process) (h : os.start.value = 0)
    (h2 : os.drain.value ≠ 0) :
    p.run os fs = (.ret { retcode := some os.drain.value
                          output := written os.chunks ++ [⟨.error, os.drain.msg⟩]
                          log := p.shown }, os.effect fs) := by
  unfold Process.run
  rw [if_neg (by simpa using h)]
  dsimp only
  rw [if_pos h2, foldl_sink]; rfl

theorem prun_wait (os : POS) (fs : FS) (p : Process) (h : os.start.value = 0)
    (h2 : os.drain.value = 0) (h3 : os.wait.value ≠ 0) :
    p.run os fs = (.ret { retcode := some os.wait.value
                          output := written os.chunks ++ [⟨.error, os.wait.msg⟩]
                          log := p.shown }, os.effect fs) := by
  unfold Process.run
  rw [if_neg (by simpa using h)]
  dsimp only
  rw [if_neg (by simpa using h2), if_pos h3, foldl_sink]; rfl

theorem prun_done (os : POS) (fs : FS) (p : Process) (hc : os.Completed) :
    p.run os fs = match writeRetcode os (os.effect fs) p.retcodeFile with
      | .error w => (.throwsStd w, os.effect fs)
      | .ok fs => (.ret { retcode := some os.exit
                          output := if os.exit ≠ 0 then ⟨.standard, p.shown⟩ :: written os.chunks
                            else written os.chunks
                          log := p.shown }, fs) := by
  obtain ⟨h, h2, h3⟩ := hc
  unfold Process.run
  rw [if_neg (by simpa using h)]
  dsimp only
  rw [if_neg (by simpa using h2), if_neg (by simpa using h3), foldl_sink]
  cases writeRetcode os (os.effect fs) p.retcodeFile with
  | error w => rfl
  | ok fs' => dsimp only; split <;> rfl

theorem POS.cases (os : POS) : os.start.value ≠ 0 ∨ (os.start.value = 0 ∧ os.drain.value ≠ 0) ∨
    (os.start.value = 0 ∧ os.drain.value = 0 ∧ os.wait.value ≠ 0) ∨ os.Completed := by
  by_cases h1 : os.start.value = 0
  · by_cases h2 : os.drain.value = 0
    · by_cases h3 : os.wait.value = 0
      · exact .inr (.inr (.inr ⟨h1, h2, h3⟩))
      · exact .inr (.inr (.inl ⟨h1, h2, h3⟩))
    · exact .inr (.inl ⟨h1, h2⟩)
  · exact .inl h1

end Joque
