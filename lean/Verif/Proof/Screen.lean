import Verif.Spec.Terminal
import Verif.Model.PrintVisitor
import Verif.Proof.Format

namespace Joque

theorem feed_append (t : Term) (a b : Str) : t.feed (a ++ b) = (t.feed a).feed b :=
  List.foldl_append

theorem putc_text {t : Term} {c : Char} (hm : t.mode = .text) (hc : 32 ≤ c.toNat ∧ c.toNat < 127) :
    t.putc c = { t with
            line := t.line.take t.col ++ List.replicate (t.col - t.line.length) ' ' ++
              c :: t.line.drop (t.col + 1)
            col := t.col + 1 } := by
  have h1 : c ≠ '\x1b' := by rintro rfl; exact absurd hc.1 (by decide)
  have h2 : c ≠ '\r' := by rintro rfl; exact absurd hc.1 (by decide)
  have h3 : c ≠ '\n' := by rintro rfl; exact absurd hc.1 (by decide)
  unfold Term.putc
  rw [hm]
  simp only [h1, h2, h3, if_false]

theorem feed_text : ∀ (v : Str) (t : Term), t.mode = .text → Printable v → (t.feed v).mode = .text := by
  intro v
  induction v with
  | nil => intro t hm _; exact hm
  | cons c v ih =>
    intro t hm hv
    show ((t.putc c).feed v).mode = _
    refine ih _ ?_ (fun x hx => hv x (by simp [hx]))
    rw [putc_text hm (hv c (by simp))]
    exact hm

theorem Displays.append {a b v w : Str} (h1 : Displays a v) (h2 : Displays b w) :
    Displays (a ++ b) (v ++ w) := by
  refine ⟨?_, ?_⟩
  · intro c hc
    rcases List.mem_append.1 hc with h | h
    · exact h1.1 c h
    · exact h2.1 c h
  · intro t ht
    rw [feed_append, feed_append, h1.2 t ht]
    exact h2.2 _ (feed_text v t ht h1.1)

theorem Displays.self {v : Str} (h : Printable v) : Displays v v := ⟨h, fun _ _ => rfl⟩

theorem Displays.nil_of {s : Str} (h : ∀ d l c, (Term.mk d l c .text).feed s = ⟨d, l, c, .text⟩) :
    Displays s [] := by
  refine ⟨(by intro c hc; cases hc), ?_⟩
  rintro ⟨d, l, c, m⟩ hm
  replace hm : m = .text := hm
  subst hm
  rw [h]; rfl

theorem dis_gray : Displays cGRAY [] := .nil_of (fun _ _ _ => rfl)
theorem dis_reset : Displays cRESET [] := .nil_of (fun _ _ _ => rfl)
theorem dis_ok : Displays cOK [] := .nil_of (fun _ _ _ => rfl)
theorem dis_fail : Displays cFAIL [] := .nil_of (fun _ _ _ => rfl)
theorem dis_skip : Displays cSKIP [] := .nil_of (fun _ _ _ => rfl)
theorem dis_depf : Displays cDEPF [] := .nil_of (fun _ _ _ => rfl)
theorem dis_start : Displays cSTART [] := .nil_of (fun _ _ _ => rfl)
theorem dis_end : Displays cEND [] := .nil_of (fun _ _ _ => rfl)

theorem printable_append {a b : Str} (ha : Printable a) (hb : Printable b) : Printable (a ++ b) := by
  intro c h; rcases List.mem_append.1 h with h | h
  · exact ha c h
  · exact hb c h

theorem printable_replicate {n : Nat} {c : Char} (hc : 32 ≤ c.toNat ∧ c.toNat < 127) :
    Printable (List.replicate n c) := by
  intro x h; rw [List.eq_of_mem_replicate h]; exact hc

theorem printable_padRight {w : Nat} {s : Str} (h : Printable s) : Printable (padRight w s) :=
  printable_append h (printable_replicate (by decide))

theorem printable_padLeft {w : Nat} {c : Char} (hc : 32 ≤ c.toNat ∧ c.toNat < 127) {s : Str}
    (h : Printable s) : Printable (padLeft w c s) :=
  printable_append (printable_replicate hc) h

theorem printable_take {n : Nat} {s : Str} (h : Printable s) : Printable (s.take n) :=
  fun c h' => h c (List.mem_of_mem_take h')

theorem printable_showNat (n : Nat) : Printable (showNat n) := by
  intro c h
  have := Nat.isDigit_of_mem_toDigits (b := 10) (by decide) (by decide) h
  simp [Char.isDigit, UInt32.le_iff_toNat_le] at this
  have h1 : c.toNat = c.val.toNat := rfl
  omega

theorem printable_showInt (z : Int) : Printable (showInt z) := by
  unfold showInt
  have h : Printable (Nat.toDigits 10 z.natAbs) := printable_showNat _
  split
  · have h1 : Printable ['-'] := by unfold Printable; decide
    exact printable_append h1 h
  · exact h

theorem printable_name (st : Status) : Printable st.name := by
  cases st <;> (unfold Printable; decide)

theorem dis_slashed (b : Str) (h : Printable b) : Displays (b.flatMap slashed) b := by
  induction b with
  | nil => exact .self h
  | cons c cs ih =>
    rw [List.flatMap_cons, slashed]
    have ih := ih (fun x hx => h x (by simp [hx]))
    by_cases hc : c = '/'
    · subst hc
      rw [if_pos rfl, grayDelim]
      have h1 : Printable ['/'] := by unfold Printable; decide
      have := (dis_gray.append ((Displays.self h1).append dis_reset)).append ih
      simpa using this
    · rw [if_neg hc]
      have h1 : Printable [c] := fun x hx => h x (by rw [List.mem_singleton] at hx; simp [hx])
      exact (Displays.self h1).append ih

theorem dis_fmtText (name : Str) (h : Printable name) :
    ∃ t, fmtText 61 name = some t ∧ Displays t (colLeft 60 (name.take 60)) := by
  have hl : (padRight 60 (name.take 60)).length = 60 :=
    length_padRight (by rw [List.length_take]; omega)
  exact ⟨_, slashLoop_spec 61 [] (padRight 60 (name.take 60)) (by rw [hl]; decide),
    dis_slashed _ (printable_padRight (printable_take h))⟩

theorem dis_fmtDur {d : Str} (h : Printable d) : Displays (fmtDur d) ([' ', ' '] ++ colRight 8 ' ' d) := by
  have h2 : Printable [' ', ' '] := by unfold Printable; decide
  have := (((Displays.self h2).append dis_gray).append
    (Displays.self (printable_padLeft (w := 8) (c := ' ') (by decide) h))).append dis_reset
  simpa [fmtDur, colRight, padLeft] using this

theorem dis_line {hms : Str} (hh : Printable hms) {count total : Nat} (ht : total ≠ 0)
    {status name : Str} (hn : Printable name) {dur : Option Str} (hd : ∀ d, dur = some d → Printable d)
    (hs : Printable status) (hc : Displays ((statColor status).getD cNONE) []) :
    ∃ line, ((fmtText 61 name).bind fun t => formatLine hms count (some total) status t dur) = some line ∧
      Displays line (taskLine hms count total status name dur) := by
  obtain ⟨t, ht1, ht2⟩ := dis_fmtText name hn
  have h2 : Displays [' ', ' '] [' ', ' '] := .self (by unfold Printable; decide)
  have h1 : Displays ['/'] ['/'] := .self (by unfold Printable; decide)
  have hw : counterWidth total = some (showNat total).length := if_neg ht
  have htot : padLeft (showNat total).length '0' (showNat total) = showNat total := by simp [padLeft]
  have hdur : Displays (match dur with
        | some d => fmtDur d
        | none => []) (match dur with
      | some d => [' ', ' '] ++ colRight 8 ' ' d
      | none => []) := by
    cases dur with
    | none => exact .self (by intro c hc; cases hc)
    | some d => exact dis_fmtDur (hd d rfl)
  rw [ht1]
  refine ⟨_, by unfold formatLine lineCounter fmtCounter; simp only [hw]; rfl, ?_⟩
  have key := ((((((((dis_gray.append (.self hh)).append dis_reset).append h2).append
    ((((Displays.self (printable_padLeft (w := (showNat total).length) (c := '0') (by decide)
      (printable_showNat count))).append h1).append dis_gray).append
      (.self (printable_showNat total)) |>.append dis_reset)).append h2).append
    ((hc.append (.self (printable_padLeft (w := 4) (c := ' ') (by decide) hs))).append dis_reset)).append
      h2).append ht2).append h2 |>.append hdur
  cases dur <;> simpa [fmtTime, fmtStatus, taskLine, colRight, padLeft, digits, showNat, htot, List.append_assoc]
    using key

end Joque
