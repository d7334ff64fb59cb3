import Verif.Spec.Time
import Mathlib.Tactic.IntervalCases

/-!
# Lemmas about dates and digits
-/

namespace Joque

/-- all the parts of `civil` at once -/
theorem civil_parts (day : Int) : ∃ era c q a doy mp : Int,
    day + 719468 = 146097 * era + 36524 * c + 1461 * q + 365 * a + doy ∧
    0 ≤ c ∧ c ≤ 3 ∧ 0 ≤ q ∧ q ≤ 24 ∧ 0 ≤ a ∧ a ≤ 3 ∧ 0 ≤ doy ∧
    (doy < 365 ∨ doy = 365 ∧ a = 3 ∧ (q = 24 → c = 3)) ∧
    mp = (5 * doy + 2) / 153 ∧
    civil day = { y := 400 * era + (100 * c + 4 * q + a) + (if mp < 10 then 0 else 1)
                  m := if mp < 10 then mp + 3 else mp - 9
                  d := doy - (153 * mp + 2) / 5 + 1 } := by
  refine ⟨_, _, _, _, _, _, ?_, ?_, ?_, ?_, ?_, ?_, ?_, ?_, ?_, rfl, rfl⟩ <;> omega

theorem civil_exists (day : Int) : (civil day).Exists := by
  obtain ⟨era, c, q, a, doy, mp, h, h1, h2, h3, h4, h5, h6, h7, h8, hm, e⟩ := civil_parts day
  rw [e]
  unfold Date.Exists daysIn Leap
  simp only
  have hmp : 0 ≤ mp ∧ mp ≤ 11 := by omega
  obtain ⟨m0, m1⟩ := hmp
  interval_cases mp <;> simp <;> omega

/-- the parts determine the date -/
theorem civil_of_parts {day era c q a doy : Int}
    (h : day + 719468 = 146097 * era + 36524 * c + 1461 * q + 365 * a + doy)
    (h1 : 0 ≤ c) (h2 : c ≤ 3) (h3 : 0 ≤ q) (h4 : q ≤ 24) (h5 : 0 ≤ a) (h6 : a ≤ 3) (h7 : 0 ≤ doy)
    (h8 : doy < 365 ∨ doy = 365 ∧ a = 3 ∧ (q = 24 → c = 3)) :
    civil day = { y := 400 * era + (100 * c + 4 * q + a) + (if (5 * doy + 2) / 153 < 10 then 0 else 1)
                  m := if (5 * doy + 2) / 153 < 10 then (5 * doy + 2) / 153 + 3
                    else (5 * doy + 2) / 153 - 9
                  d := doy - (153 * ((5 * doy + 2) / 153) + 2) / 5 + 1 } := by
  have e1 : (day + 719468) / 146097 = era := by omega
  have e2 : (day + 719468) % 146097 = 36524 * c + 1461 * q + 365 * a + doy := by omega
  have e3 : min ((36524 * c + 1461 * q + 365 * a + doy) / 36524) 3 = c := by omega
  have e4 : 36524 * c + 1461 * q + 365 * a + doy - 36524 * c = 1461 * q + 365 * a + doy := by omega
  have e5 : (1461 * q + 365 * a + doy) / 1461 = q := by omega
  have e6 : 1461 * q + 365 * a + doy - 1461 * q = 365 * a + doy := by omega
  have e7 : min ((365 * a + doy) / 365) 3 = a := by omega
  have e8 : 365 * a + doy - 365 * a = doy := by omega
  simp only [civil, e1, e2, e3, e4, e5, e6, e7, e8]

theorem next_same {Y doy : Int} (h7 : 0 ≤ doy) (h8 : doy < 364 ∨ doy = 364 ∧ Leap (Y + 1)) :
    ({ y := Y + (if (5 * (doy + 1) + 2) / 153 < 10 then 0 else 1)
       m := if (5 * (doy + 1) + 2) / 153 < 10 then (5 * (doy + 1) + 2) / 153 + 3
         else (5 * (doy + 1) + 2) / 153 - 9
       d := (doy + 1) - (153 * ((5 * (doy + 1) + 2) / 153) + 2) / 5 + 1 } : Date) =
    Date.next { y := Y + (if (5 * doy + 2) / 153 < 10 then 0 else 1)
                m := if (5 * doy + 2) / 153 < 10 then (5 * doy + 2) / 153 + 3
                  else (5 * doy + 2) / 153 - 9
                d := doy - (153 * ((5 * doy + 2) / 153) + 2) / 5 + 1 } := by
  have hd : doy ≤ 364 := by omega
  obtain ⟨mp, hmp⟩ : ∃ mp, mp = (5 * doy + 2) / 153 := ⟨_, rfl⟩
  obtain ⟨mp', hmp'⟩ : ∃ mp, mp = (5 * (doy + 1) + 2) / 153 := ⟨_, rfl⟩
  have hb : 0 ≤ mp ∧ mp ≤ 11 := by omega
  obtain ⟨m0, m1⟩ := hb
  have : mp' = mp ∨ mp' = mp + 1 := by omega
  rw [← hmp, ← hmp']
  unfold Date.next daysIn
  simp only
  rcases this with h | h <;> subst h
  · interval_cases mp' <;> simp <;> (repeat' split) <;>
      first | (simp only [Date.mk.injEq, true_and] <;> omega) | omega | (exfalso; simp_all; omega)
  · interval_cases mp <;> simp <;> (repeat' split) <;>
      (simp only [Date.mk.injEq, true_and]; omega)

theorem next_wrap {Y doy : Int} (h8 : doy = 364 ∧ ¬ Leap (Y + 1) ∨ doy = 365 ∧ Leap (Y + 1)) :
    ({ y := Y + 1, m := 3, d := 1 } : Date) =
    Date.next { y := Y + (if (5 * doy + 2) / 153 < 10 then 0 else 1)
                m := if (5 * doy + 2) / 153 < 10 then (5 * doy + 2) / 153 + 3
                  else (5 * doy + 2) / 153 - 9
                d := doy - (153 * ((5 * doy + 2) / 153) + 2) / 5 + 1 } := by
  rcases h8 with ⟨rfl, h⟩ | ⟨rfl, h⟩ <;> simp [Date.next, daysIn, h]

theorem leap_iff {era c q a : Int} (h1 : 0 ≤ c) (h2 : c ≤ 3) (h3 : 0 ≤ q) (h4 : q ≤ 24) (h5 : 0 ≤ a)
    (h6 : a ≤ 3) : Leap (400 * era + (100 * c + 4 * q + a) + 1) ↔ a = 3 ∧ (q = 24 → c = 3) := by
  unfold Leap
  omega

/-- the calendar: each day is followed by the day after it -/
theorem civil_next (day : Int) : civil (day + 1) = (civil day).next := by
  obtain ⟨era, c, q, a, doy, mp, h, h1, h2, h3, h4, h5, h6, h7, h8, hm, e⟩ := civil_parts day
  subst hm
  have hL := leap_iff (era := era) h1 h2 h3 h4 h5 h6
  rw [e]
  by_cases hs : doy < 364 ∨ doy = 364 ∧ Leap (400 * era + (100 * c + 4 * q + a) + 1)
  · rw [← next_same h7 hs]
    refine civil_of_parts (by omega) h1 h2 h3 h4 h5 h6 (by omega) ?_
    rcases hs with hs | hs
    · exact .inl (by omega)
    · exact .inr ⟨by omega, hL.1 hs.2⟩
  · rw [← next_wrap (by
      rcases h8 with h8 | ⟨h8, h9⟩
      · refine .inl ⟨by omega, fun hl => hs (.inr ⟨by omega, hl⟩)⟩
      · exact .inr ⟨h8, hL.2 h9⟩)]
    have h9 : doy = 364 ∧ ¬ (a = 3 ∧ (q = 24 → c = 3)) ∨ doy = 365 ∧ a = 3 ∧ (q = 24 → c = 3) := by
      rcases h8 with h8 | h8
      · exact .inl ⟨by omega, fun hl => hs (.inr ⟨by omega, hL.2 hl⟩)⟩
      · exact .inr h8
    clear hs hL h8 e
    by_cases ha : a < 3
    · rw [civil_of_parts (era := era) (c := c) (q := q) (a := a + 1) (doy := 0) (by omega) h1 h2 h3 h4
        (by omega) (by omega) (by omega) (by omega)]
      simp; omega
    · by_cases hq : q < 24
      · rw [civil_of_parts (era := era) (c := c) (q := q + 1) (a := 0) (doy := 0) (by omega) h1 h2 (by omega)
          (by omega) (by omega) (by omega) (by omega) (by omega)]
        simp; omega
      · by_cases hc : c < 3
        · rw [civil_of_parts (era := era) (c := c + 1) (q := 0) (a := 0) (doy := 0) (by omega) (by omega)
            (by omega) (by omega) (by omega) (by omega) (by omega) (by omega) (by omega)]
          simp; omega
        · rw [civil_of_parts (era := era + 1) (c := 0) (q := 0) (a := 0) (doy := 0) (by omega) (by omega)
            (by omega) (by omega) (by omega) (by omega) (by omega) (by omega) (by omega)]
          simp; omega

/-! ## the order of dates -/

theorem before_next (x : Date) : x.Before x.next := by
  unfold Date.Before Date.next
  split
  · exact .inr ⟨rfl, .inr ⟨rfl, by simp⟩⟩
  · split
    · exact .inr ⟨rfl, .inl (by simp)⟩
    · exact .inl (by simp)

theorem Date.Before.trans {x y z : Date} (h : x.Before y) (h' : y.Before z) : x.Before z := by
  unfold Date.Before at *
  omega

theorem civil_before_add (day : Int) (n : Nat) : (civil day).Before (civil (day + (n + 1 : Nat))) := by
  induction n with
  | zero =>
    have := before_next (civil day)
    rwa [← civil_next] at this
  | succ n ih =>
    have := before_next (civil (day + (n + 1 : Nat)))
    rw [← civil_next] at this
    have e : day + (n + 1 : Nat) + 1 = day + (n + 1 + 1 : Nat) := by push_cast; omega
    rw [e] at this
    exact ih.trans this

theorem civil_before {a b : Int} (h : a < b) : (civil a).Before (civil b) := by
  have := civil_before_add a (b - a - 1).toNat
  have e : a + ((b - a - 1).toNat + 1 : Nat) = b := by push_cast; omega
  rwa [e] at this

theorem not_before_self (x : Date) : ¬ x.Before x := by unfold Date.Before; omega

/-! ## digits -/

theorem digits_length (w n : Nat) : (digitsOf w n).length = w := by
  induction w generalizing n with
  | zero => rfl
  | succ w ih => simp [digitsOf, ih]

theorem pad_zero {w : Nat} (hw : 0 < w) : padLeft w '0' (showNat 0) = List.replicate w '0' := by
  obtain ⟨w, rfl⟩ : ∃ v, w = v + 1 := ⟨w - 1, by omega⟩
  simp [padLeft, showNat, List.replicate_succ']

/-- a padded number is made of its digits -/
theorem pad_digits (w n : Nat) (h : n < 10 ^ (w + 1)) : padLeft (w + 1) '0' (showNat n) = digitsOf (w + 1) n := by
  induction w generalizing n with
  | zero =>
    have hn : n < 10 := by simpa using h
    simp [padLeft, showNat, Nat.toDigits_of_lt_base hn, digitsOf, Nat.mod_eq_of_lt hn]
  | succ w ih =>
    have hd : n / 10 < 10 ^ (w + 1) := by
      rw [Nat.div_lt_iff_lt_mul (by decide)]
      rw [pow_succ] at h
      exact h
    rw [digitsOf, ← ih _ hd]
    by_cases hn : n < 10
    · rw [Nat.div_eq_of_lt hn, pad_zero (by omega), Nat.mod_eq_of_lt hn]
      simp [padLeft, showNat, Nat.toDigits_of_lt_base hn]
    · simp [padLeft, showNat, Nat.toDigits_of_base_le (b := 10) (by decide) (by omega : 10 ≤ n)]

theorem padNum_digits (w : Nat) {i : Int} (h0 : 0 ≤ i) (h : i < 10 ^ (w + 1)) :
    padNum (w + 1) i = digitsOf (w + 1) i.toNat := by
  unfold padNum
  rw [if_neg (by omega), List.nil_append, pad_digits]
  · rw [show i.natAbs = i.toNat by omega]
  · have : (i.natAbs : Int) < ((10 ^ (w + 1) : Nat) : Int) := by
      rw [Int.natAbs_of_nonneg h0]
      exact_mod_cast h
    exact_mod_cast this

theorem digitChar_lt {a b : Nat} (h : a < b) (hb : b < 10) : a.digitChar < b.digitChar := by
  interval_cases b <;> interval_cases a <;> decide

/-! ## the order of texts -/

theorem lt_append_of_lt {a b : Str} (h : a < b) (hl : a.length = b.length) (c d : Str) : a ++ c < b ++ d := by
  induction a generalizing b with
  | nil =>
    have : b = [] := List.eq_nil_of_length_eq_zero hl.symm
    subst this
    exact absurd h (by simp)
  | cons x xs ih =>
    cases b with
    | nil => simp at hl
    | cons y ys =>
      simp only [List.cons_append, List.cons_lt_cons_iff] at h ⊢
      simp only [List.length_cons, Nat.add_right_cancel_iff] at hl
      rcases h with h | ⟨h1, h2⟩
      · exact .inl h
      · exact .inr ⟨h1, ih h2 hl⟩

theorem digits_lt {w n m : Nat} (h : n < m) (hm : m < 10 ^ w) : digitsOf w n < digitsOf w m := by
  induction w generalizing n m with
  | zero => simp at hm; omega
  | succ w ih =>
    rw [pow_succ] at hm
    unfold digitsOf
    by_cases hd : n / 10 < m / 10
    · exact lt_append_of_lt (ih hd (by omega)) (by simp [digits_length]) _ _
    · have : n / 10 = m / 10 := by omega
      rw [this]
      apply List.append_left_lt
      simp only [List.cons_lt_cons_iff]
      exact .inl (digitChar_lt (by omega) (by omega))

theorem padNum_lt {w : Nat} {i j : Int} (h0 : 0 ≤ i) (h : i < j) (hj : j < 10 ^ (w + 1)) :
    padNum (w + 1) i < padNum (w + 1) j := by
  rw [padNum_digits w h0 (by omega), padNum_digits w (by omega) hj]
  refine digits_lt (by omega) ?_
  have : (j.toNat : Int) < ((10 ^ (w + 1) : Nat) : Int) := by push_cast; omega
  exact_mod_cast this

theorem padNum_length {w : Nat} {i : Int} (h0 : 0 ≤ i) (h : i < 10 ^ (w + 1)) : (padNum (w + 1) i).length = w + 1 := by
  rw [padNum_digits w h0 h, digits_length]

/-- a number, then a separator and more -/
theorem field_lt {w : Nat} {i j : Int} (h0 : 0 ≤ i) (h0' : 0 ≤ j) (hi : i < 10 ^ (w + 1))
    (hj : j < 10 ^ (w + 1)) {c d : Str} (h : i < j ∨ i = j ∧ c < d) :
    padNum (w + 1) i ++ c < padNum (w + 1) j ++ d := by
  rcases h with h | ⟨rfl, h⟩
  · exact lt_append_of_lt (padNum_lt h0 h hj) (by rw [padNum_length h0 hi, padNum_length h0' hj]) _ _
  · exact List.append_left_lt h

end Joque
