import Verif.Model.Time

/-!
# The calendar and the clock
-/

namespace Joque

/-- What a `system_clock::time_point` of libstdc++ can hold: 64 bits of nanoseconds. -/
def Representable (t : Int) : Prop := -9223372036854775808 ≤ t ∧ t < 9223372036854775808

/-- In a year that is written with four digits: from 0001-01-01 to 9999-12-31. -/
def FourDigits (t : Int) : Prop := -62135596800000000000 ≤ t ∧ t < 253402300800000000000

/-- Every fourth year, but of the full centuries only every fourth. -/
def Leap (y : Int) : Prop := y % 4 = 0 ∧ (y % 100 = 0 → y % 400 = 0)

instance (y : Int) : Decidable (Leap y) := by unfold Leap; infer_instance

/-- the length of a month -/
def daysIn (y m : Int) : Int :=
  if m = 2 then (if Leap y then 29 else 28)
  else if m = 4 ∨ m = 6 ∨ m = 9 ∨ m = 11 then 30 else 31

/-- a date that exists -/
def Date.Exists (x : Date) : Prop := 1 ≤ x.m ∧ x.m ≤ 12 ∧ 1 ≤ x.d ∧ x.d ≤ daysIn x.y x.m

/-- the day after -/
def Date.next (x : Date) : Date :=
  if x.d < daysIn x.y x.m then { x with d := x.d + 1 }
  else if x.m < 12 then { y := x.y, m := x.m + 1, d := 1 }
  else { y := x.y + 1, m := 1, d := 1 }

/-- earlier: by year, then by month, then by day -/
def Date.Before (x y : Date) : Prop :=
  x.y < y.y ∨ x.y = y.y ∧ (x.m < y.m ∨ x.m = y.m ∧ x.d < y.d)

/-- the decimal digits of `n`, exactly `w` of them -/
def digitsOf : Nat → Nat → Str
  | 0, _ => []
  | w + 1, n => digitsOf w (n / 10) ++ [(n % 10).digitChar]

end Joque
