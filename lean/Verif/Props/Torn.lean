import Verif.Proof.Process

/-! # What is read from a retcode file, and from one that holds only a part of the number -/

namespace Joque

theorem ws_of_mem {c : Char} (h : c ∈ [' ', '\t', '\n', '\x0b', '\x0c', '\r']) : isWs c = true := by
  simp at h
  rcases h with h | h | h | h | h | h <;> subst h <;> decide

/-- **C36**, how the file is read: white space, a sign or none, decimal digits, then anything else. The
number is the nearest `int`. -/
theorem C36_reads (ws sign ds rest : Str)
    (hws : ∀ c ∈ ws, c ∈ [' ', '\t', '\n', '\x0b', '\x0c', '\r'])
    (hsign : sign ∈ [[], ['+'], ['-']]) (hne : ds ≠ []) (hds : ∀ c ∈ ds, c.isDigit = true)
    (hrest : ∀ c, rest.head? = some c → c.isDigit = false) :
    let v : Int := if sign = ['-'] then -(Nat.ofDigitChars 10 ds 0 : Int) else Nat.ofDigitChars 10 ds 0
    let r := readInt (ws ++ sign ++ ds ++ rest)
    (IsInt v → r = v) ∧ (2147483647 < v → r = 2147483647) ∧ (v < -2147483648 → r = -2147483648) := by
  intro v r
  have hr : r = clampInt v := by
    obtain ⟨d, ds', rfl⟩ := List.exists_cons_of_ne_nil hne
    have hd := hds d (by simp)
    have htake : ((d :: ds') ++ rest).takeWhile Char.isDigit = d :: ds' := by
      rw [List.takeWhile_append, takeWhile_all hds, if_pos rfl]
      cases rest with
      | nil => simp
      | cons c cs => rw [List.takeWhile_cons_of_neg (by simp [hrest c rfl])]; simp
    have hdrop : ∀ t : Str, (∀ c, t.head? = some c → isWs c = false) →
        (ws ++ t).dropWhile isWs = t := by
      intro t ht
      rw [List.dropWhile_append, if_pos]
      · cases t with
        | nil => rfl
        | cons c cs => rw [List.dropWhile_cons_of_neg (by simp [ht c rfl])]
      · have : ∀ l : Str, (∀ c ∈ l, isWs c = true) → l.dropWhile isWs = [] := by
          intro l
          induction l with
          | nil => intro _; rfl
          | cons c cs ih =>
            intro hl
            rw [List.dropWhile_cons_of_pos (hl c (by simp))]
            exact ih fun x hx => hl x (by simp [hx])
        rw [this ws fun c hc => ws_of_mem (hws c hc)]; rfl
    have hdne : ∀ c : Char, c.isDigit = false → d ≠ c := by
      rintro c hc rfl
      rw [hd] at hc; cases hc
    show readInt _ = _
    unfold readInt
    dsimp only
    rw [List.append_assoc, List.append_assoc, hdrop]
    · simp only [List.mem_cons, List.not_mem_nil, or_false] at hsign
      rcases hsign with rfl | rfl | rfl
      · have h1 := hdne '-' (by decide)
        have h2 := hdne '+' (by decide)
        have e1 : (d :: ds' ++ rest).head? ≠ some '-' := by simp [h1]
        have e2 : (d :: ds' ++ rest).head? ≠ some '+' := by simp [h2]
        simp only [List.nil_append, e1, e2, or_self, if_false, htake]
        rfl
      · have e2 : (['+'] ++ (d :: ds' ++ rest)).head? = some '+' := by simp
        simp only [e2, or_true, if_true]
        show clampInt (Nat.ofDigitChars 10 (((d :: ds') ++ rest).takeWhile Char.isDigit) 0 : Nat) = _
        rw [htake]; rfl
      · have e1 : (['-'] ++ (d :: ds' ++ rest)).head? = some '-' := by simp
        simp only [e1, true_or, if_true]
        show clampInt (-(Nat.ofDigitChars 10 (((d :: ds') ++ rest).takeWhile Char.isDigit) 0 : Nat)) = _
        rw [htake]; rfl
    · intro c hc
      simp only [List.mem_cons, List.not_mem_nil, or_false] at hsign
      rcases hsign with rfl | rfl | rfl
      · cases hc; exact isDigit_not_ws hd
      · cases hc; decide
      · cases hc; decide
  rw [hr]
  refine ⟨fun h => clampInt_id h, fun h => ?_, fun h => ?_⟩
  · unfold clampInt
    rw [if_neg (by omega), if_pos h]
  · unfold clampInt
    rw [if_pos h]

theorem toDigits_head {n : Nat} (h : 0 < n) : ∃ c cs, Nat.toDigits 10 n = c :: cs ∧ '0'.toNat < c.toNat := by
  induction n using Nat.strongRecOn with
  | ind n ih =>
    rcases Nat.lt_or_ge n 10 with hl | hl
    · refine ⟨_, [], Nat.toDigits_of_lt_base hl, ?_⟩
      have : n = 1 ∨ n = 2 ∨ n = 3 ∨ n = 4 ∨ n = 5 ∨ n = 6 ∨ n = 7 ∨ n = 8 ∨ n = 9 := by omega
      rcases this with rfl | rfl | rfl | rfl | rfl | rfl | rfl | rfl | rfl <;> decide
    · obtain ⟨c, cs, h1, h2⟩ := ih (n / 10) (by omega) (by omega)
      exact ⟨c, cs ++ [(n % 10).digitChar], by rw [Nat.toDigits_of_base_le (by decide) hl, h1]; rfl, h2⟩

/-- the first digits of a positive number are a positive number -/
theorem prefix_pos {n k : Nat} (h : 0 < n) (hk : 0 < k) :
    0 < Nat.ofDigitChars 10 ((Nat.toDigits 10 n).take k) 0 := by
  obtain ⟨c, cs, h1, h2⟩ := toDigits_head h
  rw [h1]
  obtain ⟨k, rfl⟩ := Nat.exists_eq_succ_of_ne_zero (by omega : k ≠ 0)
  rw [List.take_succ_cons, Nat.ofDigitChars_cons, Nat.ofDigitChars_eq_ofDigitChars_zero]
  have : 0 < 10 ^ (cs.take k).length * (10 * 0 + (c.toNat - '0'.toNat)) :=
    Nat.mul_pos (Nat.pow_pos (by decide)) (by omega)
  omega

/-- **C82**, a return code of which only the first `k` characters were written is taken for success iff it
is 0, nothing was written, or only the sign. -/
theorem C82_torn (i : Int) (k : Nat) :
    readInt ((showInt i).take k) = 0 ↔ i = 0 ∨ k = 0 ∨ (k = 1 ∧ i < 0) := by
  have hdig : ∀ j, ∀ c ∈ (Nat.toDigits 10 i.natAbs).take j, c.isDigit = true := fun j c hc =>
    Nat.isDigit_of_mem_toDigits (b := 10) (n := i.natAbs) (by decide) (by decide) (List.mem_of_mem_take hc)
  rcases Nat.eq_zero_or_pos k with rfl | hk
  · simp only [List.take_zero, true_or, or_true, iff_true]; decide
  by_cases h0 : i = 0
  · subst h0
    obtain ⟨k, rfl⟩ := Nat.exists_eq_succ_of_ne_zero (by omega : k ≠ 0)
    have : (showInt 0).take (k + 1) = ['0'] := by
      have : showInt 0 = ['0'] := by decide
      rw [this]; simp
    rw [this]
    simp only [true_or, iff_true]; decide
  have hpos : 0 < i.natAbs := by omega
  have hne : ∀ j, 0 < j → (Nat.toDigits 10 i.natAbs).take j ≠ [] := by
    intro j hj h
    have := prefix_pos hpos hj
    rw [h] at this
    exact absurd this (by decide)
  by_cases hneg : i < 0
  · have hs : showInt i = '-' :: Nat.toDigits 10 i.natAbs := by unfold showInt; rw [if_pos hneg]
    obtain ⟨k, rfl⟩ := Nat.exists_eq_succ_of_ne_zero (by omega : k ≠ 0)
    rw [hs, List.take_succ_cons]
    rcases Nat.eq_zero_or_pos k with rfl | hk'
    · simp only [List.take_zero, hneg, and_self, or_true, iff_true]; decide
    · have := C36_reads [] ['-'] ((Nat.toDigits 10 i.natAbs).take k) [] (by simp) (by simp) (hne k hk')
        (hdig k) (by simp)
      simp only [List.nil_append, List.append_nil, if_true, List.singleton_append] at this
      have hp := prefix_pos hpos hk'
      generalize Nat.ofDigitChars 10 ((Nat.toDigits 10 i.natAbs).take k) 0 = v at this hp
      have hno : readInt ('-' :: (Nat.toDigits 10 i.natAbs).take k) ≠ 0 := by
        obtain ⟨t1, -, t3⟩ := this
        by_cases hv : IsInt (-(v : Int))
        · rw [t1 hv]; omega
        · rw [t3 (by unfold IsInt at hv; omega)]; decide
      constructor
      · intro h; exact absurd h hno
      · rintro (h | h | h) <;> omega
  · have hs : showInt i = Nat.toDigits 10 i.natAbs := by unfold showInt; rw [if_neg hneg]
    rw [hs]
    have := C36_reads [] [] ((Nat.toDigits 10 i.natAbs).take k) [] (by simp) (by simp) (hne k hk)
      (hdig k) (by simp)
    simp only [List.nil_append, List.append_nil] at this
    rw [if_neg (by decide)] at this
    have hp := prefix_pos hpos hk
    generalize Nat.ofDigitChars 10 ((Nat.toDigits 10 i.natAbs).take k) 0 = v at this hp
    have hno : readInt ((Nat.toDigits 10 i.natAbs).take k) ≠ 0 := by
      obtain ⟨t1, t2, -⟩ := this
      by_cases hv : IsInt (v : Int)
      · rw [t1 hv]; omega
      · rw [t2 (by unfold IsInt at hv; omega)]; decide
    constructor
    · intro h; exact absurd h hno
    · rintro (h | h | h) <;> omega

end Joque
