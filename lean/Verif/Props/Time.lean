import Verif.Proof.Time
import Verif.Props.Json
import Verif.Props.Exec2
import Verif.Props.JUnit
import Verif.Props.Format2
import Verif.Props.Process2

/-!
# C108: the times in the reports
-/

namespace Joque

/-! ## the calendar -/

/-- **C108**: day 0 is 1970-01-01, and each day is followed by the next one of the calendar. -/
theorem C108_calendar :
    civil 0 = { y := 1970, m := 1, d := 1 } ∧
    ∀ day, civil (day + 1) = (civil day).next ∧ (civil day).Exists :=
  ⟨by decide +kernel, fun day => ⟨civil_next day, civil_exists day⟩⟩

theorem next_inj {x y : Date} (hx : x.Exists) (hy : y.Exists) (h : x.next = y.next) : x = y := by
  obtain ⟨a, b, c⟩ := x
  obtain ⟨a', b', c'⟩ := y
  have hl : ∀ y m, 28 ≤ daysIn y m ∧ daysIn y m ≤ 31 := by
    intro y m; unfold daysIn; split
    · split <;> omega
    · split <;> omega
  have h1 := hl a b
  have h2 := hl a' b'
  simp only [Date.Exists] at hx hy
  simp only [Date.next] at h
  split at h <;> split at h <;> (try split at h) <;> (try split at h) <;>
    simp only [Date.mk.injEq] at h ⊢
  all_goals first
    | omega
    | (obtain ⟨rfl, h3, h4⟩ := h
       first
       | omega
       | (have : b = b' := by omega
          subst this; omega))
    | (have e1 : a = a' := by omega
       have e2 : b = b' := by omega
       subst e1; subst e2; omega)

/-- That leaves only one way to date the days. -/
theorem C108_unique (f : Int → Date) (h0 : f 0 = { y := 1970, m := 1, d := 1 })
    (hf : ∀ day, f (day + 1) = (f day).next ∧ (f day).Exists) : f = civil := by
  funext day
  obtain ⟨c0, hc⟩ := C108_calendar
  induction day using Int.induction_on with
  | zero => rw [h0, c0]
  | succ i ih => rw [(hf i).1, (hc i).1, ih]
  | pred i ih =>
    have h1 := (hf (-i - 1)).1
    have h2 := (hc (-i - 1)).1
    rw [show (-(i : Int) - 1 + 1) = -i by omega] at h1 h2
    exact next_inj (hf _).2 (hc _).2 (by rw [← h1, ← h2, ih])

example : civil 19782 = { y := 2024, m := 2, d := 29 } ∧ civil 19783 = { y := 2024, m := 3, d := 1 } ∧
    civil 11016 = { y := 2000, m := 2, d := 29 } ∧ civil (-25508) = { y := 1900, m := 3, d := 1 } ∧
    civil (-25509) = { y := 1900, m := 2, d := 28 } := by decide +kernel

/-! ## the text -/

/-- the years that are written with four digits -/
theorem year_range {t : Int} (h : FourDigits t) :
    1 ≤ (civil (t / ticksPerDay)).y ∧ (civil (t / ticksPerDay)).y ≤ 9999 := by
  unfold FourDigits at h
  have h1 : -719162 ≤ t / ticksPerDay ∧ t / ticksPerDay ≤ 2932896 := by
    simp only [ticksPerDay, ticksPerSec]; omega
  have le : ∀ a b, a ≤ b → (civil a).y ≤ (civil b).y := by
    intro a b hab
    rcases Int.lt_or_eq_of_le hab with hl | rfl
    · have := civil_before hl
      unfold Date.Before at this
      omega
    · exact Int.le_refl _
  have e1 : (civil (-719162)).y = 1 := by decide +kernel
  have e2 : (civil 2932896).y = 9999 := by decide +kernel
  have := le _ _ h1.1
  have := le _ _ h1.2
  omega

theorem Representable.digits {t : Int} (h : Representable t) : FourDigits t := by
  unfold Representable FourDigits at *; omega

/-- a date and a time of day between other characters -/
def stamp (sep : Char) (tail : Str) (t : Int) : Str := dateText t ++ sep :: (clockText t ++ tail)

theorem json_stamp (t : Int) : jsonTime t = stamp ' ' [] t := by simp [jsonTime, stamp]

theorem junit_stamp (t : Int) : junitTime t = stamp 'T' ['Z'] t := by simp [junitTime, stamp]

/-- **C108**, what the text says: the digits of year, month, day, hour, minute, second and nanosecond, which
together are the time point. -/
theorem C108_text (sep : Char) (tail : Str) {t : Int} (h : FourDigits t) :
    ∃ (day : Int) (x : Date) (hh mm ss ns : Nat),
      t = (((day * 24 + hh) * 60 + mm) * 60 + ss) * 1000000000 + ns ∧ x = civil day ∧
      hh < 24 ∧ mm < 60 ∧ ss < 60 ∧ ns < 1000000000 ∧ 0 ≤ x.y ∧
      stamp sep tail t = digitsOf 4 x.y.toNat ++ ['-'] ++ digitsOf 2 x.m.toNat ++ ['-'] ++
        digitsOf 2 x.d.toNat ++ [sep] ++ digitsOf 2 hh ++ [':'] ++ digitsOf 2 mm ++ [':'] ++
        digitsOf 2 ss ++ ['.'] ++ digitsOf 9 ns ++ tail := by
  have hy := year_range h
  have hx := civil_exists (t / ticksPerDay)
  unfold Date.Exists at hx
  have hd : daysIn (civil (t / ticksPerDay)).y (civil (t / ticksPerDay)).m ≤ 31 := by
    unfold daysIn; split
    · split <;> omega
    · split <;> omega
  refine ⟨t / ticksPerDay, _, (t % ticksPerDay / ticksPerSec / 3600).toNat,
    (t % ticksPerDay / ticksPerSec / 60 % 60).toNat, (t % ticksPerDay / ticksPerSec % 60).toNat,
    (t % ticksPerSec).toNat, ?_, rfl, ?_, ?_, ?_, ?_, by omega, ?_⟩
  iterate 5 (simp only [ticksPerDay, ticksPerSec]; omega)
  have b1 : 0 ≤ t % ticksPerDay / ticksPerSec / 3600 ∧ t % ticksPerDay / ticksPerSec / 3600 < 100 := by
    simp only [ticksPerDay, ticksPerSec]; omega
  have b2 : 0 ≤ t % ticksPerSec ∧ t % ticksPerSec < 1000000000 := by
    simp only [ticksPerSec]; omega
  simp only [stamp, dateText, clockText]
  rw [padNum_digits 3 (by omega) (by omega), padNum_digits 1 (by omega) (by omega),
    padNum_digits 1 (by omega) (by omega), padNum_digits 1 b1.1 (by omega), padNum_digits 1 (by omega) (by omega),
    padNum_digits 1 (by omega) (by omega), padNum_digits 8 b2.1 (by omega)]
  simp only [List.append_assoc, List.cons_append, List.nil_append]

theorem stamp_lt (sep : Char) (tail : Str) {t u : Int} (ht : FourDigits t) (hu : FourDigits u)
    (h : t < u) : stamp sep tail t < stamp sep tail u := by
  have hy := year_range ht
  have hy' := year_range hu
  have hx := civil_exists (t / ticksPerDay)
  have hx' := civil_exists (u / ticksPerDay)
  unfold Date.Exists at hx hx'
  have hd : ∀ y m, daysIn y m ≤ 31 := by
    intro y m; unfold daysIn; split
    · split <;> omega
    · split <;> omega
  have hd1 := hd (civil (t / ticksPerDay)).y (civil (t / ticksPerDay)).m
  have hd2 := hd (civil (u / ticksPerDay)).y (civil (u / ticksPerDay)).m
  have cc : ∀ {c : Char} {a b : Str}, a < b → c :: a < c :: b :=
    fun h => List.cons_lt_cons_iff.2 (.inr ⟨rfl, h⟩)
  simp only [stamp, dateText, clockText, List.append_assoc, List.cons_append]
  have hcase : t / ticksPerDay < u / ticksPerDay ∨
      t / ticksPerDay = u / ticksPerDay ∧ t % ticksPerDay < u % ticksPerDay := by
    simp only [ticksPerDay, ticksPerSec]; omega
  rcases hcase with hl | ⟨he, hl⟩
  · have hb := civil_before hl
    unfold Date.Before at hb
    refine field_lt (w := 3) (by omega) (by omega) (by omega) (by omega) ?_
    refine hb.imp id (And.imp id fun hb => cc ?_)
    refine field_lt (w := 1) (by omega) (by omega) (by omega) (by omega) ?_
    refine hb.imp id (And.imp id fun hb => cc ?_)
    exact field_lt (w := 1) (by omega) (by omega) (by omega) (by omega) (.inl hb)
  · rw [he]
    refine List.append_left_lt (cc (List.append_left_lt (cc (List.append_left_lt (cc ?_)))))
    have b0 : 0 ≤ t % ticksPerDay / ticksPerSec ∧ t % ticksPerDay / ticksPerSec < 86400 := by
      simp only [ticksPerDay, ticksPerSec]; omega
    have b0' : 0 ≤ u % ticksPerDay / ticksPerSec ∧ u % ticksPerDay / ticksPerSec < 86400 := by
      simp only [ticksPerDay, ticksPerSec]; omega
    have b1 : 0 ≤ t % ticksPerSec ∧ t % ticksPerSec < 1000000000 := by
      simp only [ticksPerSec]; omega
    have b1' : 0 ≤ u % ticksPerSec ∧ u % ticksPerSec < 1000000000 := by
      simp only [ticksPerSec]; omega
    have hs : t % ticksPerDay / ticksPerSec < u % ticksPerDay / ticksPerSec ∨
        t % ticksPerDay / ticksPerSec = u % ticksPerDay / ticksPerSec ∧ t % ticksPerSec < u % ticksPerSec := by
      simp only [ticksPerDay, ticksPerSec] at hl ⊢; omega
    generalize t % ticksPerDay / ticksPerSec = s at *
    generalize u % ticksPerDay / ticksPerSec = s' at *
    refine field_lt (w := 1) (by omega) (by omega) (by omega) (by omega) ?_
    by_cases h1 : s / 3600 < s' / 3600
    · exact .inl h1
    refine .inr ⟨by omega, cc (field_lt (w := 1) (by omega) (by omega) (by omega) (by omega) ?_)⟩
    by_cases h2 : s / 60 % 60 < s' / 60 % 60
    · exact .inl h2
    refine .inr ⟨by omega, cc (field_lt (w := 1) (by omega) (by omega) (by omega) (by omega) ?_)⟩
    by_cases h3 : s % 60 < s' % 60
    · exact .inl h3
    exact .inr ⟨by omega, cc (field_lt (w := 8) (by omega) (by omega) (by omega) (by omega) (.inl (by omega)))⟩

theorem stamp_sorts (sep : Char) (tail : Str) {t u : Int} (ht : FourDigits t) (hu : FourDigits u) :
    stamp sep tail t < stamp sep tail u ↔ t < u := by
  refine ⟨fun h => ?_, stamp_lt sep tail ht hu⟩
  rcases Int.lt_trichotomy t u with h1 | rfl | h1
  · exact h1
  · exact absurd h (List.lt_irrefl _)
  · exact absurd h (List.lt_asymm (stamp_lt sep tail hu ht h1))

/-- **C108**: the times of the JSON export, compared as texts, are in the order of the time points. -/
theorem C108_sorts {t u : Int} (ht : Representable t) (hu : Representable u) :
    jsonTime t < jsonTime u ↔ t < u := by
  rw [json_stamp, json_stamp]; exact stamp_sorts _ _ ht.digits hu.digits

/-- … and so are the time stamps of JUnit reports. -/
theorem C108_junit_sorts {t u : Int} (ht : Representable t) (hu : Representable u) :
    junitTime t < junitTime u ↔ t < u := by
  rw [junit_stamp, junit_stamp]; exact stamp_sorts _ _ ht.digits hu.digits

/-- **C108**: different time points are shown differently. -/
theorem C108_exact {t u : Int} (ht : Representable t) (hu : Representable u) (h : jsonTime t = jsonTime u) :
    t = u := by
  rcases Int.lt_trichotomy t u with h1 | h1 | h1
  · exact absurd ((C108_sorts ht hu).2 h1) (by rw [h]; exact List.lt_irrefl _)
  · exact h1
  · exact absurd ((C108_sorts hu ht).2 h1) (by rw [h]; exact List.lt_irrefl _)

/-- All of them have the same length. -/
theorem C108_length {t : Int} (ht : Representable t) :
    (jsonTime t).length = 29 ∧ (junitTime t).length = 30 := by
  constructor
  · rw [json_stamp]
    obtain ⟨_, _, _, _, _, _, _, _, _, _, _, _, _, e⟩ := C108_text ' ' [] ht.digits
    rw [e]; simp [digits_length]
  · rw [junit_stamp]
    obtain ⟨_, _, _, _, _, _, _, _, _, _, _, _, _, e⟩ := C108_text 'T' ['Z'] ht.digits
    rw [e]; simp [digits_length]

example : jsonTime 1709164800000000042 = "2024-02-29 00:00:00.000000042".toList ∧
    jsonTime (-1) = "1969-12-31 23:59:59.999999999".toList ∧
    junitTime 951868799999999999 = "2000-02-29T23:59:59.999999999Z".toList ∧
    Representable 1709164800000000042 ∧ Representable (-1) := by
  refine ⟨by decide +kernel, by decide +kernel, by decide +kernel, ?_, ?_⟩ <;> unfold Representable <;> omega

/-- **C108**, explanations: the file times in the explanation of an answer of `is_invalidated` are in the order
of their texts, too. -/
theorem C108_file_times {t u : Int} (ht : Representable t) (hu : Representable u) :
    fileTimeText t < fileTimeText u ↔ t < u := by
  unfold fileTimeText
  have off : ∀ {x}, Representable x → FourDigits (x + 6437664000 * ticksPerSec) := by
    intro x hx
    unfold Representable at hx
    unfold FourDigits
    simp only [ticksPerSec]
    omega
  rw [json_stamp, json_stamp, stamp_sorts _ _ (off ht) (off hu)]
  omega

/-- So whoever reads an explanation with two times can check the answer by comparing the texts: it is
"invalidated" unless the output is the later one. -/
theorem C108_explanation (fs : FS) (p : Process) (hfs : ∀ q f, fs q = some f → Representable f.time)
    {o i : Str} {tO tI : Int} (hr : (WhyStale.times o tO i tI).True fs p) :
    ((WhyStale.times o tO i tI).result fileTimeText).invalidated = true ↔
      ¬ fileTimeText tI < fileTimeText tO := by
  obtain ⟨-, -, -, -, h1, h2, -⟩ := hr
  have rep : ∀ q t, TimeOr0 fs q t → Representable t := by
    rintro q t (⟨f, hf, rfl⟩ | ⟨-, rfl⟩)
    · exact hfs q f hf
    · unfold Representable; omega
  rw [C108_file_times (rep _ _ h2) (rep _ _ h1)]
  simp only [WhyStale.result, decide_eq_true_eq]
  omega

example :
    let fs : FS := fun q => if q = ['a'] then some ⟨-4725000000000000001, []⟩
      else if q = ['b'] then some ⟨-4725000000000000000, []⟩ else none
    let p : Process := { cmd := [], input := [['b']], output := [['a']], retcodeFile := none }
    (p.isInvalidated fileTimeText fs).invalidated = true ∧
    (p.isInvalidated fileTimeText fs).log = ("oldest output a t: 2024-04-09 11:59:59.999999999 \n " ++
      "latest input b t: 2024-04-09 12:00:00.000000000").toList := by decide +kernel

/-- Four digits are needed: the year 10000 sorts before 9999. -/
example : jsonTime 253402300800000000000 < jsonTime (253402300800000000000 - 1) ∧
    FourDigits (253402300800000000000 - 1) ∧ ¬ FourDigits 253402300800000000000 := by
  refine ⟨by decide +kernel, ?_, ?_⟩ <;> unfold FourDigits <;> omega

/-! ## in the reports -/

/-- **C108**, JSON: the readings of the clock can be got back from the export, so two executions with the same
JSON had the same times (and the rest, as in C44). -/
theorem C108_json (clock clock' : Nat → Int) (hc : ∀ i, Representable (clock i))
    (hc' : ∀ i, Representable (clock' i)) (er er' : ExecRecord)
    (h : er.toJson jsonTime clock = er'.toJson jsonTime clock') :
    er.stats = er'.stats ∧ er.totalCount = er'.totalCount ∧
    List.Forall₂ (SameRun clock clock') er.runs er'.runs :=
  C44_injective jsonTime clock clock' (fun i j => C108_exact (hc i) (hc' j)) er er' h

/-- **C108**, an execution: with a monotone clock, in the JSON of its records `start` does not sort after
`end`, and the `start` of a task not before the `end` of a task it comes after. -/
theorem C108_execution (C : Cfg) (hwf : C.dag.WF) (ms : List Move) (clock : Nat → Int)
    (hclock : ∀ i j, i ≤ j → clock i ≤ clock j) (hc : ∀ i, Representable (clock i))
    (r : RunRecord) (hr : r ∈ recsOf (exec C ms).trace) :
    ∃ s e, (r.toJson jsonTime clock).get "start".toList = some (.str s) ∧
      (r.toJson jsonTime clock).get "end".toList = some (.str e) ∧ s ≤ e ∧
      ∀ r2 ∈ recsOf (exec C ms).trace, AfterEdge C.dag r.node r2.node →
        ∃ e2, (r2.toJson jsonTime clock).get "end".toList = some (.str e2) ∧ e2 ≤ s := by
  have hle : ∀ {t u}, Representable t → Representable u → t ≤ u → jsonTime t ≤ jsonTime u := by
    intro t u ht hu h hlt
    exact absurd ((C108_sorts hu ht).1 hlt) (by omega)
  obtain ⟨h1, h2⟩ := C49_times C hwf ms clock hclock r hr
  obtain ⟨-, -, -, a4, a5, -⟩ := C44_run_members jsonTime clock r
  refine ⟨_, _, a4, a5, hle (hc _) (hc _) h1, fun r2 hr2 ha => ?_⟩
  obtain ⟨-, -, -, -, b5, -⟩ := C44_run_members jsonTime clock r2
  exact ⟨_, b5, hle (hc _) (hc _) (h2 r2 hr2 ha)⟩

theorem clean_padNum (w : Nat) (i : Int) : XmlClean (padNum w i) := by
  unfold padNum padLeft
  refine clean_append ?_ (clean_append ?_ (clean_digits _))
  · split
    · exact clean_of_all (by decide)
    · exact clean_of_all (by decide)
  · intro c hc
    rw [List.eq_of_mem_replicate hc]
    decide

theorem clean_cons {c : Char} {s : Str} (hc : c ≠ '"' ∧ c ≠ '<' ∧ c ≠ '&' ∧ 32 ≤ c.toNat)
    (hs : XmlClean s) : XmlClean (c :: s) := by
  intro x hx
  rcases List.mem_cons.1 hx with rfl | hx
  · exact hc
  · exact hs x hx

theorem clean_junitTime (t : Int) : XmlClean (junitTime t) := by
  simp only [junitTime, dateText, clockText]
  refine clean_append (clean_append (clean_padNum _ _) (clean_cons (by decide) (clean_append (clean_padNum _ _)
    (clean_cons (by decide) (clean_padNum _ _))))) (clean_cons (by decide) (clean_append ?_ ?_))
  · exact clean_append (clean_padNum _ _) (clean_cons (by decide) (clean_append (clean_padNum _ _)
      (clean_cons (by decide) (clean_append (clean_padNum _ _) (clean_cons (by decide) (clean_padNum _ _))))))
  · exact clean_of_all (by decide)

/-- **C108**, JUnit: a reader of the report finds the time of the call as its `timestamp`. -/
theorem C108_junit (clock : Nat → Int) (secs : RunRecord → Str) (now : Int) (tsName : Str) (er : ExecRecord)
    (hne : er.runs ≠ []) (hts : XmlClean tsName)
    (hr : ∀ r ∈ er.runs, XmlClean r.name ∧ XmlClean (secs r)) :
    ∃ t doc, runtimeSum clock er = some t ∧ junitXml clock secs (junitTime now) tsName er = some doc ∧
      parseXml doc = some (suiteTree t secs (junitTime now) tsName er) :=
  C42_partial clock secs (junitTime now) tsName er hne (clean_junitTime now) hts hr

/-- **C108**, lines: the time in front of a line is the time of day (UTC), six digits.  It does not contain
escape sequences, so C57 and C105 apply to the actual lines. -/
theorem C108_line (s : Int) : ∃ hh mm ss : Nat, hh < 24 ∧ mm < 60 ∧ ss < 60 ∧
    (∃ day : Int, s = ((day * 24 + hh) * 60 + mm) * 60 + ss) ∧
    hmsText s = digitsOf 2 hh ++ digitsOf 2 mm ++ digitsOf 2 ss ∧
    (hmsText s).length = 6 ∧ Plain (hmsText s) := by
  have e : hmsText s = digitsOf 2 (s % 86400 / 3600).toNat ++ digitsOf 2 (s % 86400 / 60 % 60).toNat ++
      digitsOf 2 (s % 86400 % 60).toNat := by
    simp only [hmsText]
    rw [padNum_digits 1 (by omega) (by omega), padNum_digits 1 (by omega) (by omega),
      padNum_digits 1 (by omega) (by omega), List.append_assoc]
  refine ⟨(s % 86400 / 3600).toNat, (s % 86400 / 60 % 60).toNat, (s % 86400 % 60).toNat, by omega, by omega,
    by omega, ⟨s / 86400, by omega⟩, e, by rw [e]; simp [digits_length], ?_⟩
  have hp : XmlClean (hmsText s) :=
    clean_append (clean_padNum _ _) (clean_append (clean_padNum _ _) (clean_padNum _ _))
  intro hx
  exact absurd (hp _ hx).2.2.2 (by decide)

theorem digits_inj {w n m : Nat} (hn : n < 10 ^ w) (hm : m < 10 ^ w) (h : digitsOf w n = digitsOf w m) :
    n = m := by
  rcases Nat.lt_trichotomy n m with h1 | h1 | h1
  · exact absurd (digits_lt h1 hm) (by rw [h]; exact List.lt_irrefl _)
  · exact h1
  · exact absurd (digits_lt h1 hn) (by rw [h]; exact List.lt_irrefl _)

/-- Two lines show the same time exactly if they were made at the same second of a day: unlike the reports
they do not tell the day. -/
theorem C108_line_same (s s' : Int) : hmsText s = hmsText s' ↔ s % 86400 = s' % 86400 := by
  constructor
  · intro h
    obtain ⟨a, b, c, h1, h2, h3, ⟨d, h4⟩, h5, -⟩ := C108_line s
    obtain ⟨a', b', c', h1', h2', h3', ⟨d', h4'⟩, h5', -⟩ := C108_line s'
    rw [h5, h5'] at h
    have l2 : ∀ n, (digitsOf 2 n).length = 2 := digits_length 2
    obtain ⟨e1, e2⟩ := List.append_inj h (by simp [l2])
    obtain ⟨e0, e1⟩ := List.append_inj e1 (by simp [l2])
    have := digits_inj (by omega) (by omega) e0
    have := digits_inj (by omega) (by omega) e1
    have := digits_inj (by omega) (by omega) e2
    subst a' b' c'
    omega
  · intro h
    simp only [hmsText, h]

/-- The clock read for the line is cut to seconds: the second it falls in (from 1970 on). -/
theorem C108_second {t : Int} (h : 0 ≤ t) : castSec t * 1000000000 ≤ t ∧ t < (castSec t + 1) * 1000000000 := by
  have : castSec t = t / 1000000000 := by
    simp only [castSec, ticksPerSec]; exact Int.tdiv_eq_ediv_of_nonneg h
  rw [this]; omega

example : hmsText (castSec 1709251199999999999) = "235959".toList ∧
    hmsText 1709251199 = hmsText (1709251199 + 86400) := by decide +kernel

/-- a clock around midnight before 29 February 2024 -/
def exClock (i : Nat) : Int := 1709164790000000000 + (min i 1000 : Nat) * 400000000

example : (∀ i j, i ≤ j → exClock i ≤ exClock j) ∧ (∀ i, Representable (exClock i)) ∧
    (exec (Ex.cfg 2) Ex.done2).erec.runs.map
      (fun r => (r.node, jsonTime (exClock r.start), jsonTime (exClock r.end))) =
      [(1, "2024-02-28 23:59:55.600000000".toList, "2024-02-28 23:59:58.400000000".toList),
       (5, "2024-02-28 23:59:58.800000000".toList, "2024-02-28 23:59:58.800000000".toList),
       (4, "2024-02-29 00:00:00.400000000".toList, "2024-02-29 00:00:03.200000000".toList),
       (2, "2024-02-29 00:00:04.400000000".toList, "2024-02-29 00:00:07.200000000".toList),
       (3, "2024-02-29 00:00:08.000000000".toList, "2024-02-29 00:00:08.000000000".toList)] := by
  refine ⟨fun i j h => ?_, fun i => ?_, by decide +kernel⟩
  · unfold exClock; omega
  · unfold Representable exClock; omega

end Joque
