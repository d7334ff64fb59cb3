import Verif.Spec.Format

namespace Joque

/-! ## format_nested -/

theorem nested_flat (indent : Str) (cs : List Chunk) (st : Str × Char × Str) :
    cs.foldl (fun st ch => ch.data.foldl (nestedStep indent) st) st
      = (allText cs).foldl (nestedStep indent) st := by
  induction cs generalizing st with
  | nil => rfl
  | cons c cs ih =>
    show cs.foldl _ (c.data.foldl (nestedStep indent) st) = (c.data ++ allText cs).foldl _ st
    rw [ih, List.foldl_append]

theorem nested_rest (indent : Str) (l : Str) (hl : '\n' ∉ l) (lc : Char) (hlc : lc ≠ '\n') (o : Str) :
    ∃ c, c ≠ '\n' ∧ l.foldl (nestedStep indent) ([], lc, o) = ([], c, o ++ l) := by
  induction l generalizing lc o with
  | nil => exact ⟨lc, hlc, by simp⟩
  | cons c cs ih =>
    have hc : c ≠ '\n' := fun h => hl (by simp [h])
    obtain ⟨d, hd, h⟩ := ih (fun h => hl (List.mem_cons_of_mem _ h)) c hc (o ++ [c])
    refine ⟨d, hd, ?_⟩
    rw [List.foldl_cons]
    have : nestedStep indent ([], lc, o) c = ([], c, o ++ [c]) := by
      simp [nestedStep, hc]
    rw [this, h, List.append_assoc]; rfl

theorem nested_part (indent : Str) (l : Str) (hl : '\n' ∉ l) (hne : l ≠ []) (lc : Char) (o : Str) :
    ∃ c, c ≠ '\n' ∧ l.foldl (nestedStep indent) (indent, lc, o) = ([], c, o ++ indent ++ l) := by
  cases l with
  | nil => exact absurd rfl hne
  | cons c cs =>
    have hc : c ≠ '\n' := fun h => hl (by simp [h])
    obtain ⟨d, hd, h⟩ := nested_rest indent cs (fun h => hl (List.mem_cons_of_mem _ h)) c hc
      (o ++ indent ++ [c])
    refine ⟨d, hd, ?_⟩
    rw [List.foldl_cons]
    have : nestedStep indent (indent, lc, o) c = ([], c, o ++ indent ++ [c]) := by
      simp [nestedStep, hc]
    rw [this, h, List.append_assoc]; rfl

theorem nested_line (indent : Str) (l : Str) (hl : '\n' ∉ l) (lc : Char) (o : Str) :
    (l ++ ['\n']).foldl (nestedStep indent) (indent, lc, o)
      = (indent, '\n', o ++ (indent ++ l ++ ['\n'])) := by
  rw [List.foldl_append]
  by_cases hne : l = []
  · subst hne; simp [nestedStep]
  · obtain ⟨c, _, h⟩ := nested_part indent l hl hne lc o
    rw [h]; simp [nestedStep]

theorem nested_lines (indent : Str) (ls : List Str) (hl : ∀ l ∈ ls, '\n' ∉ l) (o : Str) :
    (ls.flatMap (fun l => l ++ ['\n'])).foldl (nestedStep indent) (indent, '\n', o)
      = (indent, '\n', o ++ ls.flatMap (fun l => indent ++ l ++ ['\n'])) := by
  induction ls generalizing o with
  | nil => simp
  | cons l ls ih =>
    rw [List.flatMap_cons, List.foldl_append, nested_line indent l (hl l (by simp)),
      ih (fun l h => hl l (List.mem_cons_of_mem _ h)), List.flatMap_cons]
    simp

theorem splitsInto_exists (s : Str) : ∃ ls p, SplitsInto s ls p := by
  induction s with
  | nil => exact ⟨[], [], rfl, by simp, by simp⟩
  | cons c cs ih =>
    obtain ⟨ls, p, h⟩ := ih
    by_cases hc : c = '\n'
    · refine ⟨[] :: ls, p, by rw [hc, h.eq]; rfl, ?_, h.rest⟩
      intro l hl
      rcases List.mem_cons.1 hl with rfl | hl
      · simp
      · exact h.lines l hl
    · cases ls with
      | nil =>
        refine ⟨[], c :: p, by rw [h.eq]; rfl, by simp, ?_⟩
        intro hm
        rcases List.mem_cons.1 hm with hm | hm
        · exact hc hm.symm
        · exact h.rest hm
      | cons l ls =>
        refine ⟨(c :: l) :: ls, p, by rw [h.eq]; rfl, ?_, h.rest⟩
        intro l' hl'
        rcases List.mem_cons.1 hl' with rfl | hl'
        · intro hm
          rcases List.mem_cons.1 hm with hm | hm
          · exact hc hm.symm
          · exact h.lines l (by simp) hm
        · exact h.lines l' (List.mem_cons_of_mem _ hl')

/-! ## fmt_text -/

/-- what becomes of one character -/
def slashed (c : Char) : Str := if c = '/' then grayDelim else [c]

theorem flatMap_slashed_none (b : Str) (h : '/' ∉ b) : b.flatMap slashed = b := by
  induction b with
  | nil => rfl
  | cons c cs ih =>
    have hc : c ≠ '/' := fun h' => h (by simp [h'])
    rw [List.flatMap_cons, ih (fun h' => h (List.mem_cons_of_mem _ h')), slashed, if_neg hc]; rfl

theorem findSlash_none (a b : Str) (h : '/' ∉ b) : findSlash (a ++ b) a.length = none := by
  have : List.findIdx? (fun x => decide (x = '/')) b = none := by
    rw [List.findIdx?_eq_none_iff]
    intro x hx
    simp only [decide_eq_false_iff_not]
    rintro rfl; exact h hx
  simp [findSlash, this]

theorem findSlash_some (a b1 b2 : Str) (h : '/' ∉ b1) :
    findSlash (a ++ (b1 ++ '/' :: b2)) a.length = some (a.length + b1.length) := by
  have : List.findIdx? (fun x => decide (x = '/')) (b1 ++ '/' :: b2) = some b1.length := by
    induction b1 with
    | nil => rfl
    | cons c cs ih =>
      have hc : c ≠ '/' := fun h' => h (by simp [h'])
      rw [List.cons_append, List.findIdx?_cons, if_neg (by simp [hc]),
        ih (fun h' => h (List.mem_cons_of_mem _ h'))]
      rfl
  simp [findSlash, this]

theorem split_slash (b : Str) : '/' ∉ b ∨ ∃ b1 b2, b = b1 ++ '/' :: b2 ∧ '/' ∉ b1 := by
  induction b with
  | nil => simp
  | cons c cs ih =>
    by_cases hc : c = '/'
    · exact .inr ⟨[], cs, by rw [hc]; rfl, by simp⟩
    · rcases ih with h | ⟨b1, b2, rfl, h⟩
      · left
        intro hm
        rcases List.mem_cons.1 hm with hm | hm
        · exact hc hm.symm
        · exact h hm
      · refine .inr ⟨c :: b1, b2, rfl, ?_⟩
        intro hm
        rcases List.mem_cons.1 hm with hm | hm
        · exact hc hm.symm
        · exact h hm

theorem slashLoop_spec (fuel : Nat) (a b : Str) (h : b.length < fuel) :
    slashLoop fuel (a ++ b) a.length = some (a ++ b.flatMap slashed) := by
  induction fuel generalizing a b with
  | zero => exact absurd h (Nat.not_lt_zero _)
  | succ fuel ih =>
    rcases split_slash b with hb | ⟨b1, b2, rfl, hb⟩
    · rw [slashLoop, findSlash_none a b hb, flatMap_slashed_none b hb]
    · rw [slashLoop, findSlash_some a b1 b2 hb]
      show slashLoop fuel _ _ = _
      have h1 : (a ++ (b1 ++ '/' :: b2)).take (a.length + b1.length) = a ++ b1 := by
        rw [← List.append_assoc, ← List.length_append, List.take_left']
        rfl
      have h2 : (a ++ (b1 ++ '/' :: b2)).drop (a.length + b1.length + 1) = b2 := by
        have : a ++ (b1 ++ '/' :: b2) = (a ++ b1 ++ ['/']) ++ b2 := by simp
        rw [this, List.drop_left']
        simp; omega
      rw [h1, h2]
      have := ih (a ++ b1 ++ grayDelim) b2 (by simp at h; omega)
      rw [List.length_append, List.length_append] at this
      rw [this, List.flatMap_append, List.flatMap_cons, flatMap_slashed_none b1 hb]
      simp [slashed]

/-! ## what is visible -/

theorem vis_plain (s r : Str) (h : Plain s) : visAux false (s ++ r) = s ++ visAux false r := by
  induction s with
  | nil => rfl
  | cons c cs ih =>
    have hc : c ≠ '\x1b' := fun h' => h (by simp [h'])
    show (if c = '\x1b' then _ else c :: visAux false (cs ++ r)) = _
    rw [if_neg hc, ih (fun h' => h (List.mem_cons_of_mem _ h'))]; rfl

theorem vis_gray (r : Str) : visAux false (cGRAY ++ r) = visAux false r := by
  simp [cGRAY, colour, escC, visAux]
theorem vis_reset (r : Str) : visAux false (cRESET ++ r) = visAux false r := by
  simp [cRESET, escC, visAux]
theorem vis_ok (r : Str) : visAux false (cOK ++ r) = visAux false r := by
  simp [cOK, colour, escC, visAux]
theorem vis_fail (r : Str) : visAux false (cFAIL ++ r) = visAux false r := by
  simp [cFAIL, colour, escC, visAux]
theorem vis_skip (r : Str) : visAux false (cSKIP ++ r) = visAux false r := by
  simp [cSKIP, colour, escC, visAux]
theorem vis_depf (r : Str) : visAux false (cDEPF ++ r) = visAux false r := by
  simp [cDEPF, colour, escC, visAux]
theorem vis_start (r : Str) : visAux false (cSTART ++ r) = visAux false r := by
  simp [cSTART, colour, escC, visAux]
theorem vis_end (r : Str) : visAux false (cEND ++ r) = visAux false r := by
  simp [cEND, colour, escC, visAux]

theorem vis_slashed (b r : Str) (h : Plain b) :
    visAux false (b.flatMap slashed ++ r) = b ++ visAux false r := by
  induction b with
  | nil => rfl
  | cons c cs ih =>
    have hcs : Plain cs := fun h' => h (List.mem_cons_of_mem _ h')
    rw [List.flatMap_cons, List.append_assoc, slashed]
    by_cases hc : c = '/'
    · rw [if_pos hc, grayDelim, List.append_assoc, vis_gray, List.cons_append, hc]
      have h1 : visAux false ('/' :: (cRESET ++ (cs.flatMap slashed ++ r)))
          = '/' :: visAux false (cRESET ++ (cs.flatMap slashed ++ r)) := by
        rw [visAux, if_neg (by decide)]
      rw [h1, vis_reset, ih hcs]; rfl
    · rw [if_neg hc, vis_plain [c] _ (fun h' => h (by rw [List.mem_singleton] at h'; rw [← h']; simp)), ih hcs]; rfl

theorem plain_append {a b : Str} (ha : Plain a) (hb : Plain b) : Plain (a ++ b) := by
  intro h; rcases List.mem_append.1 h with h | h
  · exact ha h
  · exact hb h

theorem plain_replicate {n : Nat} {c : Char} (hc : c ≠ '\x1b') : Plain (List.replicate n c) := by
  intro h; exact hc (List.eq_of_mem_replicate h).symm

theorem plain_padRight {w : Nat} {s : Str} (h : Plain s) : Plain (padRight w s) :=
  plain_append h (plain_replicate (by decide))

theorem plain_padLeft {w : Nat} {c : Char} (hc : c ≠ '\x1b') {s : Str} (h : Plain s) :
    Plain (padLeft w c s) :=
  plain_append (plain_replicate hc) h

theorem plain_take {n : Nat} {s : Str} (h : Plain s) : Plain (s.take n) :=
  fun h' => h (List.mem_of_mem_take h')

theorem plain_showNat (n : Nat) : Plain (showNat n) := by
  intro h
  have := Nat.isDigit_of_mem_toDigits (b := 10) (by decide) (by decide) h
  exact absurd this (by decide)

theorem plain_name (st : Status) : Plain st.name := by
  cases st <;> (unfold Plain; decide)

theorem vis_name_color (st : Status) (r : Str) :
    visAux false ((statColor st.name).getD [] ++ r) = visAux false r := by
  cases st
  · exact vis_ok r
  · exact vis_skip r
  · exact vis_depf r
  · exact vis_fail r

theorem vis_endEntry (st : Status) (n : Nat) (r : Str) :
    visAux false (endEntry st n ++ r)
      = [' ', ' '] ++ st.name ++ [':', ' '] ++ padRight 5 (showNat n) ++ visAux false r := by
  have h2 : Plain [' ', ' '] := by unfold Plain; decide
  have h3 : Plain [':', ' '] := by unfold Plain; decide
  unfold endEntry
  by_cases hn : 0 < n
  · rw [if_pos hn, if_pos hn]
    simp only [List.append_assoc, cNONE, List.nil_append]
    rw [vis_plain _ _ h2, vis_plain _ _ (plain_name st), vis_plain _ _ h3, vis_name_color,
      vis_plain _ _ (plain_padRight (plain_showNat n)), vis_reset]
  · rw [if_neg hn, if_neg hn]
    simp only [List.append_assoc]
    rw [vis_plain _ _ h2, vis_gray, vis_plain _ _ (plain_name st), vis_plain _ _ h3, vis_gray,
      vis_plain _ _ (plain_padRight (plain_showNat n)), vis_reset]

theorem length_padRight {w : Nat} {s : Str} (h : s.length ≤ w) : (padRight w s).length = w := by
  simp [padRight]; omega

theorem length_padLeft {w : Nat} {c : Char} {s : Str} (h : s.length ≤ w) :
    (padLeft w c s).length = w := by
  simp [padLeft]; omega

/-- fewer or equal, no more digits -/
theorem showNat_length_mono {a b : Nat} (h : a ≤ b) : (showNat a).length ≤ (showNat b).length := by
  have hb : 0 < (showNat b).length := List.length_pos_iff.2 (Nat.toDigits_ne_nil)
  have h1 := (Nat.length_toDigits_le_iff (b := 10) (n := b) (by decide) hb).1 (Nat.le_refl _)
  exact (Nat.length_toDigits_le_iff (b := 10) (n := a) (by decide) hb).2 (by omega)

end Joque
