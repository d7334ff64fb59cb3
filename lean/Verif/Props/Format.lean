import Verif.Proof.Format
import Verif.Props.Exec2

/-!
# Text output

C39 nested output, C40 task names, C41 total run time, C48 names of enums, C50 summary line,
C57 columns line up.
-/

namespace Joque

/-! ## C39 -/

/-- **C39**.  The output made of the lines `ls` and the unclosed rest `p` is printed with every line
(also an empty one) prefixed by the indentation, and a rest is closed by a line break. -/
theorem C39_lines (indent : Str) (cs : List Chunk) (ls : List Str) (p : Str)
    (h : SplitsInto (allText cs) ls p) :
    formatNested indent cs = ls.flatMap (fun l => indent ++ l ++ ['\n'])
      ++ (if p = [] then [] else indent ++ p ++ ['\n']) := by
  unfold formatNested
  rw [nested_flat, h.eq, List.foldl_append, nested_lines indent ls h.lines]
  by_cases hp : p = []
  · subst hp; simp
  · obtain ⟨c, hc, h1⟩ := nested_part indent p h.rest hp '\n' ([] ++ ls.flatMap (fun l => indent ++ l ++ ['\n']))
    simp only [h1, hc, if_false, hp]
    simp

/-- Every text has such a decomposition, so the previous theorem determines the output. -/
theorem C39_total (s : Str) : ∃ ls p, SplitsInto s ls p := splitsInto_exists s

/-- The result does not depend on how the text is cut into chunks or on their streams. -/
theorem C39_chunks (indent : Str) (cs cs' : List Chunk) (h : allText cs = allText cs') :
    formatNested indent cs = formatNested indent cs' := by
  obtain ⟨ls, p, hs⟩ := splitsInto_exists (allText cs)
  rw [C39_lines indent cs ls p hs, C39_lines indent cs' ls p (h ▸ hs)]

/-- No output, no text; otherwise the text ends with a line break. -/
theorem C39_end (indent : Str) (cs : List Chunk) :
    (allText cs = [] → formatNested indent cs = []) ∧
    (allText cs ≠ [] → ∃ t, formatNested indent cs = t ++ ['\n']) := by
  obtain ⟨ls, p, hs⟩ := splitsInto_exists (allText cs)
  rw [C39_lines indent cs ls p hs]
  constructor
  · intro h
    rw [hs.eq] at h
    obtain ⟨h1, rfl⟩ := List.append_eq_nil_iff.1 h
    cases ls with
    | nil => rfl
    | cons l ls => simp at h1
  · intro h
    by_cases hp : p = []
    · rw [if_pos hp]
      rcases List.eq_nil_or_concat ls with rfl | ⟨ls', l, rfl⟩
      · rw [hs.eq, hp] at h; simp at h
      · exact ⟨ls'.flatMap (fun l => indent ++ l ++ ['\n']) ++ (indent ++ l), by simp⟩
    · rw [if_neg hp]
      exact ⟨ls.flatMap (fun l => indent ++ l ++ ['\n']) ++ (indent ++ p), by simp⟩

example : SplitsInto "a\n\nb".toList ["a".toList, []] "b".toList ∧
    formatNested "  ".toList [⟨.standard, "a\n".toList⟩, ⟨.error, "\nb".toList⟩]
      = "  a\n  \n  b\n".toList := by
  refine ⟨⟨by decide +kernel, ?_, by decide +kernel⟩, by decide +kernel⟩
  intro l hl
  simp only [List.mem_cons, List.not_mem_nil, or_false] at hl
  rcases hl with rfl | rfl <;> decide +kernel

/-! ## C40 -/

/-- **C40**.  The loop ends within 61 rounds, for any text, and the result is the text cut or padded to
60 characters with each `/` replaced by the coloured delimiter. -/
theorem C40_text (text : Str) :
    fmtText 61 text = some ((padRight 60 (text.take 60)).flatMap
      fun c => if c = '/' then "\x1b[38;5;239m/\x1b[0m".toList else [c]) := by
  have hl : (padRight 60 (text.take 60)).length = 60 :=
    length_padRight (by rw [List.length_take]; omega)
  have := slashLoop_spec 61 [] (padRight 60 (text.take 60)) (by rw [hl]; decide)
  have hd : "\x1b[38;5;239m/\x1b[0m".toList = grayDelim := by decide +kernel
  rw [hd]
  exact this

/-- On a terminal one sees exactly 60 characters: the text, cut or padded. -/
theorem C40_visible (text : Str) (h : Plain text) :
    (fmtText 61 text).map visible = some (padRight 60 (text.take 60)) ∧
    (padRight 60 (text.take 60)).length = 60 ∧
    (text.length ≤ 60 → ∃ k, padRight 60 (text.take 60) = text ++ List.replicate k ' ') := by
  have hl : (padRight 60 (text.take 60)).length = 60 :=
    length_padRight (by rw [List.length_take]; omega)
  refine ⟨?_, hl, ?_⟩
  · have := slashLoop_spec 61 [] (padRight 60 (text.take 60)) (by rw [hl]; decide)
    replace this : fmtText 61 text = some ((padRight 60 (text.take 60)).flatMap slashed) := this
    rw [this]
    have h2 := vis_slashed (padRight 60 (text.take 60)) [] (plain_padRight (plain_take h))
    rw [List.append_nil] at h2
    show some (visAux false _) = _
    rw [h2]; simp [visAux]
  · intro hle
    exact ⟨60 - text.length, by rw [List.take_of_length_le hle]; rfl⟩

example : Plain "a/b".toList ∧ (fmtText 61 "a/b".toList).map visible
    = some ("a/b".toList ++ List.replicate 57 ' ') := by
  refine ⟨?_, by decide +kernel⟩
  unfold Plain; decide +kernel

/-! ## C48 -/

/-- **C48**.  Different values have different names, and no name is empty. -/
theorem C48_names :
    (∀ a b : Status, a.name = b.name → a = b) ∧ (∀ a : Status, a.name ≠ []) ∧
    (∀ a b : EKind, a.name = b.name → a = b) ∧ (∀ a : EKind, a.name ≠ []) ∧
    (∀ a b : Inval, a.name = b.name → a = b) ∧ (∀ a : Inval, a.name ≠ []) := by
  refine ⟨?_, ?_, ?_, ?_, ?_, ?_⟩
  · intro a b; cases a <;> cases b <;> decide +kernel
  · intro a; cases a <;> decide +kernel
  · intro a b; cases a <;> cases b <;> decide +kernel
  · intro a; cases a <;> decide +kernel
  · intro a b; cases a <;> cases b <;> decide +kernel
  · intro a; cases a <;> decide +kernel

example : Status.name .depf = "DEPF".toList := by decide +kernel

/-! ## C50 -/

/-- **C50**.  What one sees of the summary: number of tasks run, and the four counters. -/
theorem C50_summary (er : ExecRecord) :
    visible (endText er) =
      "run: ".toList ++ padRight 9 (showNat (er.stats.get .ok + er.stats.get .fail))
        ++ "  OK: ".toList ++ padRight 5 (showNat (er.stats.get .ok))
        ++ "  SKIP: ".toList ++ padRight 5 (showNat (er.stats.get .skip))
        ++ "  DEPF: ".toList ++ padRight 5 (showNat (er.stats.get .depf))
        ++ "  FAIL: ".toList ++ padRight 5 (showNat (er.stats.get .fail)) := by
  have h1 : "run: ".toList = ['r', 'u', 'n', ':', ' '] := by decide +kernel
  have h2 : "  OK: ".toList = [' ', ' '] ++ Status.name .ok ++ [':', ' '] := by decide +kernel
  have h3 : "  SKIP: ".toList = [' ', ' '] ++ Status.name .skip ++ [':', ' '] := by decide +kernel
  have h4 : "  DEPF: ".toList = [' ', ' '] ++ Status.name .depf ++ [':', ' '] := by decide +kernel
  have h5 : "  FAIL: ".toList = [' ', ' '] ++ Status.name .fail ++ [':', ' '] := by decide +kernel
  rw [h1, h2, h3, h4, h5]
  have hr : Plain ['r', 'u', 'n', ':', ' '] := by unfold Plain; decide
  unfold visible endText
  rw [← List.append_nil (endEntry .fail _)]
  simp only [List.append_assoc]
  rw [vis_plain _ _ hr, vis_plain _ _ (plain_padRight (plain_showNat _)), vis_endEntry, vis_endEntry,
    vis_endEntry, vis_endEntry]
  simp [visAux, Stats.get]

/-- For a finished execution the four counters add up to the number of tasks. -/
theorem C50_sum (C : Cfg) (hwf : C.dag.WF) (ms : List Move) (hfin : (exec C ms).phase = .finished) :
    let st := (exec C ms).erec.stats
    st.get .ok + st.get .skip + st.get .depf + st.get .fail = (exec C ms).erec.totalCount ∧
    (exec C ms).erec.totalCount = C.dag.nodes.length :=
  ⟨C13_final C hwf ms hfin, (C02_one_record C hwf ms hfin).2.2⟩

/-- Different counts are shown differently. -/
theorem C50_faithful (w a b : Nat) (h : padRight w (showNat a) = padRight w (showNat b)) : a = b := by
  have key : ∀ n, (padRight w (showNat n)).takeWhile Char.isDigit = showNat n := by
    intro n
    unfold padRight
    have hd : ∀ c ∈ showNat n, c.isDigit = true :=
      fun c hc => Nat.isDigit_of_mem_toDigits (b := 10) (by decide) (by decide) hc
    rw [List.takeWhile_append_of_pos hd]
    cases w - (showNat n).length with
    | zero => simp
    | succ k =>
      rw [List.replicate_succ, List.takeWhile_cons_of_neg (by decide), List.append_nil]
  have h1 : showNat a = showNat b := by rw [← key a, h, key b]
  have h2 := congrArg (fun l => Nat.ofDigitChars 10 l 0) h1
  simpa [showNat, Nat.ofDigitChars_ten_toDigits] using h2

example : (exec (Ex.cfg 2) Ex.done2).phase = .finished ∧
    visible (endText (exec (Ex.cfg 2) Ex.done2).erec)
      = "run: 3          OK: 2      SKIP: 1      DEPF: 1      FAIL: 1    ".toList :=
  ⟨Ex.fin2, by decide +kernel⟩

end Joque
