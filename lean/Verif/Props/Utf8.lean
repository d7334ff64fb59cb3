import Verif.Spec.JsonText
import Verif.Proof.Utf8
import Verif.Proof.Screen
import Verif.Proof.InsertSet
import Verif.Props.Format
import Verif.Props.JUnit
import Verif.Props.Process
import Verif.Proof.Process
import Mathlib.Data.List.TakeWhile
import Verif.Props.Task

/-!
# Text that is not English

Statement C96.  Here a `Str` is the bytes of a text.
-/

namespace Joque

/-- **C96**, filters.  A filter selects the tasks whose name contains it as a text: that bytes are compared
makes no difference. -/
theorem C96_filter (name filter : Str) (n f : List Char) (hn : Encodes name n) (hf : Encodes filter f) :
    containsStr name filter = true ↔ f <:+: n := by
  rw [containsStr_iff, ← encode_infix (f := f), ← hn, ← hf]
  constructor
  · rintro ⟨x, y, rfl⟩
    exact ⟨x.map Char.toNat, y.map Char.toNat, by simp⟩
  · rintro ⟨x, y, h⟩
    obtain ⟨a, b, h1, h2, h3⟩ := List.map_eq_append_iff.1 h.symm
    obtain ⟨c, d, h4, h5, h6⟩ := List.map_eq_append_iff.1 h2
    have : d = filter := (List.map_injective_iff.2 fun _ _ h => Char.toNat_inj.1 h) h6
    exact ⟨c, b, by rw [h1, h4, this]⟩

/-- **C96**, names.  The full name of a task is a text if the names in the tree are. -/
theorem C96_name (ts : TaskSet) (name : Str) (t : TaskId) (h : (name, t) ∈ forEachTask ts)
    (hk : ∀ p t, At ts p t → ∀ k ∈ p, IsUtf8 k) : IsUtf8 name := by
  obtain ⟨p, hp, rfl⟩ := (C24_visits ts name t).1 h
  replace hp := hk p t hp
  rw [fullName, isUtf8_ascii_append (by unfold Ascii; decide)]
  clear h hk
  induction p with
  | nil => exact isUtf8_nil
  | cons k p ih =>
    cases p with
    | nil => simpa [List.intercalate] using hp k (by simp)
    | cons k' p =>
      have : List.intercalate ['/'] (k :: k' :: p) = k ++ '/' :: List.intercalate ['/'] (k' :: p) := by
        simp [List.intercalate]
      rw [this, isUtf8_ascii_iff (by decide)]
      exact ⟨hp k (by simp), ih fun x hx => hp x (by simp [hx])⟩

/-! ## Output shown under a task -/

/-- **C96**, output.  The output of a task is shown as a text if all of it together is one, also if a
character is spread over two chunks. -/
theorem C96_nested (indent : Str) (cs : List Chunk) (hi : Ascii indent) :
    IsUtf8 (formatNested indent cs) ↔ IsUtf8 (allText cs) := by
  obtain ⟨ls, p, hs⟩ := splitsInto_exists (allText cs)
  rw [C39_lines indent cs ls p hs, hs.eq]
  have key : ∀ q r : Str, (IsUtf8 q ↔ IsUtf8 r) → ∀ ls : List Str,
      (IsUtf8 (ls.flatMap (fun l => indent ++ l ++ ['\n']) ++ q) ↔
        IsUtf8 (ls.flatMap (fun l => l ++ ['\n']) ++ r)) := by
    intro q r hqr ls
    induction ls with
    | nil => simpa using hqr
    | cons l ls ih =>
      simp only [List.flatMap_cons, List.append_assoc, List.cons_append, List.nil_append] at ih ⊢
      rw [isUtf8_ascii_append hi, isUtf8_ascii_iff (by decide), isUtf8_ascii_iff (by decide), ih]
  refine key _ _ ?_ ls
  split
  · rename_i h; rw [h]
  · rw [List.append_assoc, isUtf8_ascii_append hi, isUtf8_append_ascii (by unfold Ascii; decide)]

/-! ## Lines -/

theorem slashed_ascii (c : Char) : slashed c = [c] ∨
    (c.toNat < 0x80 ∧ Ascii (slashed c) ∧ slashed c ≠ []) := by
  by_cases h : c = '/'
  · subst h
    right
    refine ⟨by decide, ?_, by decide⟩
    unfold Ascii; decide
  · left; simp [slashed, h]

/-- **C96**, lines.  What a line of the report shows of a name (the first 60 bytes, padded with any number
of spaces) is a text iff these bytes are. -/
theorem C96_line (name t : Str) (pad fuel : Nat) (hf : 60 + pad < fuel)
    (h : slashLoop fuel (name.take 60 ++ List.replicate pad ' ') 0 = some t) :
    IsUtf8 t ↔ IsUtf8 (name.take 60) := by
  have h1 := slashLoop_spec fuel [] (name.take 60 ++ List.replicate pad ' ') (by
    simp [List.length_take]; omega)
  rw [List.nil_append, List.nil_append, List.length_nil, h] at h1
  have ht : t = (name.take 60 ++ List.replicate pad ' ').flatMap slashed := by simpa using h1
  have h2 := isUtf8_replace slashed_ascii [] (name.take 60 ++ List.replicate pad ' ')
  rw [List.nil_append, List.nil_append] at h2
  rw [ht, h2, isUtf8_append_ascii]
  intro c hc
  rw [(List.mem_replicate.1 hc).2]; decide

/-- **C96**, lines.  The name is cut between two characters iff the byte after the cut begins one; in
particular names of at most 60 bytes are shown as they are. -/
theorem C96_cut (name : Str) (h : IsUtf8 name) :
    IsUtf8 (name.take 60) ↔ ∀ c, name[60]? = some c → ¬ ContByte c := by
  have h' : IsUtf8 (name.take 60 ++ name.drop 60) := by rwa [List.take_append_drop]
  rw [isUtf8_cut_iff h']
  constructor
  · intro hx c hc
    obtain ⟨hl, hc⟩ := List.getElem?_eq_some_iff.1 hc
    refine hx c (name.drop 61) ?_
    rw [← hc, List.getElem_cons_drop]
  · intro hx c l hc
    apply hx c
    have : (name.drop 60)[0]? = some c := by rw [hc]; rfl
    simpa using this

/-- **C96** fails for lines: a name that is cut within a character. -/
theorem C96_counterexample : ∃ name t, IsUtf8 name ∧ fmtText 61 name = some t ∧ ¬ IsUtf8 t := by
  let name : Str := "//".toList ++ List.replicate 57 'a' ++ [Char.ofNat 0xC3, Char.ofNat 0xA9]
  have hv : IsUtf8 name := ⟨"//".toList ++ List.replicate 57 'a' ++ ['é'], by unfold Encodes; decide +kernel⟩
  refine ⟨name, _, hv, C40_text name, ?_⟩
  have h : slashLoop 61 (name.take 60 ++ List.replicate 0 ' ') 0 = fmtText 61 name := by
    have : padRight 60 (name.take 60) = name.take 60 ++ List.replicate 0 ' ' := by decide +kernel
    rw [fmtText, this]
  rw [C96_line name _ 0 61 (by decide) (h.trans (C40_text name)), C96_cut name hv]
  intro hc
  exact hc (Char.ofNat 0xA9) (by decide +kernel) (by unfold ContByte; decide)

/-- **C96** (partial), lines.  Names of at most 60 bytes are shown whole. -/
theorem C96_partial (name t : Str) (pad fuel : Nat) (hn : IsUtf8 name) (hl : name.length ≤ 60)
    (hf : 60 + pad < fuel) (h : slashLoop fuel (name.take 60 ++ List.replicate pad ' ') 0 = some t) :
    IsUtf8 t := by
  rw [C96_line name t pad fuel hf h, List.take_of_length_le hl]
  exact hn

/-! ## Commands -/

/-- **C96**, commands.  The command shown is a text iff the arguments are. -/
theorem C96_cmd (cmd : List Str) : IsUtf8 (formatCmd cmd) ↔ ∀ a ∈ cmd, IsUtf8 a := by
  unfold formatCmd
  rw [isUtf8_append_ascii (by unfold Ascii; decide)]
  induction cmd with
  | nil => simp [isUtf8_nil]
  | cons a cmd ih =>
    have h : ∀ c : Char, (if c = ' ' then ['\\', ' '] else [c]) = [c] ∨ (c.toNat < 0x80 ∧
        Ascii (if c = ' ' then ['\\', ' '] else [c]) ∧ (if c = ' ' then ['\\', ' '] else [c]) ≠ []) := by
      intro c
      by_cases h : c = ' '
      · subst h
        refine .inr ⟨by decide, ?_, by decide⟩
        unfold Ascii; decide
      · exact .inl (by simp [h])
    have h2 := isUtf8_replace h [] a
    rw [List.nil_append, List.nil_append] at h2
    rw [List.flatMap_cons, List.append_assoc, List.singleton_append, isUtf8_ascii_iff (by decide), h2, ih]
    simp

/-! ## JSON -/

theorem strOf_str (s t : Str) : StrOf s (.str t) ↔ s = t :=
  ⟨fun h => by cases h; rfl, fun h => h ▸ .here⟩

theorem printable_num (i : Int) : (Json.num i).Printable := fun s h => by cases h

theorem printable_str (t : Str) : (Json.str t).Printable ↔ IsUtf8 t :=
  ⟨fun h => h t .here, fun h s hs => by rw [(strOf_str s t).1 hs]; exact h⟩

theorem printable_arr (l : List Json) : (Json.arr l).Printable ↔ ∀ j ∈ l, j.Printable :=
  ⟨fun h j hj s hs => h s (.arr hj hs), fun h s hs => by cases hs with | arr hj hs => exact h _ hj s hs⟩

theorem printable_obj (l : List (Str × Json)) :
    (Json.obj l).Printable ↔ ∀ m ∈ l, IsUtf8 m.1 ∧ m.2.Printable := by
  constructor
  · exact fun h m hm => ⟨h _ (.key (j := m.2) hm), fun s hs => h s (.member (k := m.1) hm hs)⟩
  · intro h s hs
    cases hs with
    | key hm => exact (h _ hm).1
    | member hm hs => exact (h _ hm).2 s hs

theorem ascii_utf8 {s : Str} (h : s.all (fun c => c.toNat < 0x80) = true) : IsUtf8 s := by
  apply Ascii.isUtf8
  intro c hc
  simpa using List.all_eq_true.1 h c hc

theorem chunk_printable (c : Chunk) : c.toJson.Printable ↔ IsUtf8 c.data := by
  have : c.toJson = .obj [("type".toList, .num c.type.toInt), ("data".toList, .str c.data)] := rfl
  rw [this, printable_obj]
  simp only [List.mem_cons, List.not_mem_nil, or_false, forall_eq_or_imp, forall_eq, printable_str,
    printable_num, and_true]
  have h1 : IsUtf8 "type".toList := ascii_utf8 (by decide +kernel)
  have h2 : IsUtf8 "data".toList := ascii_utf8 (by decide +kernel)
  simp only [h1, h2, true_and]

theorem run_printable (fmt : Int → Str) (clock : Nat → Int) (r : RunRecord) :
    (r.toJson fmt clock).Printable ↔ IsUtf8 r.name ∧ IsUtf8 (fmt (clock r.start)) ∧
      IsUtf8 (fmt (clock r.end)) ∧ ∀ c ∈ r.output, IsUtf8 c.data := by
  have : r.toJson fmt clock = .obj [("name".toList, .str r.name), ("status".toList, .num r.status.toInt),
    ("retcode".toList, .num r.retcode), ("start".toList, .str (fmt (clock r.start))),
    ("end".toList, .str (fmt (clock r.end))), ("output".toList, .arr (r.output.map Chunk.toJson))] := rfl
  rw [this, printable_obj]
  simp only [List.mem_cons, List.not_mem_nil, or_false, forall_eq_or_imp, forall_eq, printable_str,
    printable_num, printable_arr, and_true, List.mem_map, forall_exists_index, and_imp,
    forall_apply_eq_imp_iff₂, chunk_printable]
  have h1 : IsUtf8 "name".toList := ascii_utf8 (by decide +kernel)
  have h2 : IsUtf8 "status".toList := ascii_utf8 (by decide +kernel)
  have h3 : IsUtf8 "retcode".toList := ascii_utf8 (by decide +kernel)
  have h4 : IsUtf8 "start".toList := ascii_utf8 (by decide +kernel)
  have h5 : IsUtf8 "end".toList := ascii_utf8 (by decide +kernel)
  have h6 : IsUtf8 "output".toList := ascii_utf8 (by decide +kernel)
  simp only [h1, h2, h3, h4, h5, h6, true_and]

/-- **C96**, JSON.  The export can be printed iff names and shown times are texts, and so is every chunk
of output for itself. -/
theorem C96_json (fmt : Int → Str) (clock : Nat → Int) (er : ExecRecord) :
    (er.toJson fmt clock).Printable ↔ ∀ r ∈ er.runs, IsUtf8 r.name ∧ IsUtf8 (fmt (clock r.start)) ∧
      IsUtf8 (fmt (clock r.end)) ∧ ∀ c ∈ r.output, IsUtf8 c.data := by
  have : er.toJson fmt clock = .obj [(Status.name .ok, .num er.stats.ok),
    (Status.name .skip, .num er.stats.skip), (Status.name .depf, .num er.stats.depf),
    (Status.name .fail, .num er.stats.fail), ("total_count".toList, .num er.totalCount),
    ("runs".toList, .arr (er.runs.map (RunRecord.toJson fmt clock)))] := rfl
  rw [this, printable_obj]
  simp only [List.mem_cons, List.not_mem_nil, or_false, forall_eq_or_imp, forall_eq,
    printable_num, printable_arr, and_true, List.mem_map, forall_exists_index, and_imp,
    forall_apply_eq_imp_iff₂, run_printable]
  have h1 : IsUtf8 (Status.name .ok) := ascii_utf8 (by decide +kernel)
  have h2 : IsUtf8 (Status.name .skip) := ascii_utf8 (by decide +kernel)
  have h3 : IsUtf8 (Status.name .depf) := ascii_utf8 (by decide +kernel)
  have h4 : IsUtf8 (Status.name .fail) := ascii_utf8 (by decide +kernel)
  have h5 : IsUtf8 "total_count".toList := ascii_utf8 (by decide +kernel)
  have h6 : IsUtf8 "runs".toList := ascii_utf8 (by decide +kernel)
  simp only [h1, h2, h3, h4, h5, h6, true_and]

theorem isUtf8_one {c : Char} (h : IsUtf8 [c]) : c.toNat < 0x80 := by
  obtain ⟨t, ht⟩ := h
  unfold Encodes at ht
  cases t with
  | nil => simp [encodeUtf8] at ht
  | cons d t =>
    rw [encode_cons, utf8_eq] at ht
    by_contra hc
    split at ht
    · simp at ht; omega
    · split at ht
      · simp at ht
      · split at ht <;> simp at ht

/-- what is not ASCII can be cut so that the first part is no text -/
theorem exists_bad_cut {s : Str} (ha : ¬ Ascii s) : ∃ x y, s = x ++ y ∧ ¬ IsUtf8 x := by
  have hsp := List.takeWhile_append_dropWhile (p := fun c : Char => decide (c.toNat < 0x80)) (l := s)
  have hA : Ascii (s.takeWhile fun c => decide (c.toNat < 0x80)) := by
    intro c hc
    simpa using List.mem_takeWhile_imp hc
  cases hd : s.dropWhile (fun c => decide (c.toNat < 0x80)) with
  | nil =>
    rw [hd, List.append_nil] at hsp
    rw [hsp] at hA
    exact absurd hA ha
  | cons c l =>
    have hc : ¬ c.toNat < 0x80 := by
      have := List.head_dropWhile_not (fun c : Char => decide (c.toNat < 0x80)) (l := s) (by rw [hd]; simp)
      simpa [hd] using this
    refine ⟨(s.takeWhile fun c => decide (c.toNat < 0x80)) ++ [c], l, by simp [← hd], ?_⟩
    rw [isUtf8_ascii_append hA]
    exact fun h => hc (isUtf8_one h)

/-- **C96** fails for JSON.  Whatever a process writes that is not plain ASCII, there is a way of it coming
in chunks (where they end depends on timing and on the size of a buffer) with which the process succeeds
and the export of its record cannot be printed, although the output as a whole is a text. -/
theorem C96_json_counterexample (s : Str) (h : IsUtf8 s) (ha : ¬ Ascii s) (p : Process) (os : POS) (fs : FS)
    (hos : os.Completed) (h0 : os.exit = 0) (hp : p.retcodeFile = none) :
    ∃ cs r, cs.flatMap (fun c => c.2) = s ∧ (p.run { os with chunks := cs } fs).1 = .ret r ∧
      r.retcode = some 0 ∧ allText r.output = s ∧
      ∀ fmt clock (er : ExecRecord), (∃ rr ∈ er.runs, rr.output = r.output) →
        ¬ (er.toJson fmt clock).Printable := by
  obtain ⟨x, y, rfl, hx⟩ := exists_bad_cut ha
  have hos' : ({ os with chunks := [(true, x), (true, y)] } : POS).Completed := hos
  have hr := prun_done { os with chunks := [(true, x), (true, y)] } fs p hos'
  rw [hp] at hr
  refine ⟨[(true, x), (true, y)], _, by simp, by rw [hr]; rfl, by rw [h0], ?_, ?_⟩
  · simp [h0, written, allText]
  · rintro fmt clock er ⟨rr, hrr, ho⟩ hpr
    refine hx (((C96_json fmt clock er).1 hpr rr hrr).2.2.2 ⟨.standard, x⟩ ?_)
    rw [ho]
    simp [h0, written]

/-! ## JUnit -/

theorem isUtf8_last {x y : Str} (h : ∃ z c, x = z ++ [c] ∧ c.toNat < 0x80) :
    IsUtf8 (x ++ y) ↔ IsUtf8 x ∧ IsUtf8 y := by
  obtain ⟨z, c, rfl, hc⟩ := h
  have h1 : IsUtf8 (z ++ [c]) ↔ IsUtf8 z := isUtf8_append_ascii (by simpa [Ascii] using hc)
  rw [List.append_assoc, List.singleton_append, isUtf8_ascii_iff hc, h1]

theorem attr_utf8 {n v : Str} (hn : Ascii n) : IsUtf8 (attr n v) ↔ IsUtf8 v := by
  unfold attr
  rw [isUtf8_append_ascii (by unfold Ascii; decide), List.append_assoc, isUtf8_ascii_append hn,
    isUtf8_ascii_append (by unfold Ascii; decide)]

theorem xmlOpen_utf8 {n : Str} (hn : Ascii n) (args : List Str) :
    IsUtf8 (xmlOpen n args) ↔ ∀ a ∈ args, IsUtf8 a := by
  unfold xmlOpen
  rw [isUtf8_append_ascii (by unfold Ascii; decide), List.append_assoc,
    isUtf8_ascii_append (by unfold Ascii; decide), isUtf8_ascii_append hn]
  induction args using List.reverseRecOn with
  | nil => simp [isUtf8_nil]
  | append_singleton l a ih =>
    rw [List.flatMap_append, List.flatMap_singleton, List.singleton_append, isUtf8_ascii_iff (by decide), ih]
    constructor
    · rintro ⟨h1, h2⟩ x hx
      rcases List.mem_append.1 hx with hx | hx
      · exact h1 x hx
      · rw [List.mem_singleton.1 hx]; exact h2
    · exact fun h => ⟨fun x hx => h x (by simp [hx]), h a (by simp)⟩

theorem xmlOpen_last (n : Str) (args : List Str) : ∃ z c, xmlOpen n args = z ++ [c] ∧ c.toNat < 0x80 :=
  ⟨['<'] ++ n ++ args.flatMap (fun a => [' '] ++ a) ++ ['>'], '\n', by simp [xmlOpen], by decide⟩

theorem ascii_all {s : Str} (h : s.all (fun c => c.toNat < 0x80) = true) : Ascii s := fun c hc => by
  simpa using List.all_eq_true.1 h c hc

theorem junitCase_utf8 (secs : RunRecord → Str) (r : RunRecord) :
    IsUtf8 (junitCase secs r) ↔ IsUtf8 r.name ∧ IsUtf8 (secs r) := by
  have hc : Ascii (xmlClose "testcase".toList) := ascii_all (by decide +kernel)
  have hf : Ascii (if r.retcode ≠ 0 then "<failure message=\"task failed\"/>\n".toList else []) := by
    split
    · exact ascii_all (by decide +kernel)
    · simp [Ascii]
  unfold junitCase
  rw [isUtf8_append_ascii hc, isUtf8_append_ascii hf, xmlOpen_utf8 (ascii_all (by decide +kernel))]
  simp only [List.mem_cons, List.not_mem_nil, or_false, forall_eq_or_imp, forall_eq]
  rw [attr_utf8 (ascii_all (by decide +kernel)), attr_utf8 (ascii_all (by decide +kernel))]

theorem junitCase_last (secs : RunRecord → Str) (r : RunRecord) :
    ∃ z c, junitCase secs r = z ++ [c] ∧ c.toNat < 0x80 :=
  ⟨_, '\n', by
    have : xmlClose "testcase".toList = "</testcase>".toList ++ ['\n'] := by decide +kernel
    rw [junitCase, this, ← List.append_assoc], by decide⟩

/-- **C96**, JUnit.  The document, which calls itself UTF-8, is so iff the names and the times are. -/
theorem C96_junit (clock : Nat → Int) (secs : RunRecord → Str) (stamp tsName : Str) (er : ExecRecord)
    (doc : Str) (h : junitXml clock secs stamp tsName er = some doc) :
    IsUtf8 doc ↔ IsUtf8 tsName ∧ IsUtf8 stamp ∧ ∀ r ∈ er.runs, IsUtf8 r.name ∧ IsUtf8 (secs r) := by
  unfold junitXml at h
  obtain ⟨t, -, rfl⟩ := Option.map_eq_some_iff.1 h
  have hc : Ascii (xmlClose "testsuite".toList) := ascii_all (by decide +kernel)
  have hh : Ascii "<?xml version=\"1.0\" encoding=\"UTF-8\"?>\n".toList := ascii_all (by decide +kernel)
  have hp : ∀ {s : Str}, Printable s → IsUtf8 s := fun hs => Ascii.isUtf8 fun c hc => by
    have := hs c hc; omega
  have cases_utf8 : ∀ rs : List RunRecord, IsUtf8 (rs.flatMap (junitCase secs)) ↔
      ∀ r ∈ rs, IsUtf8 r.name ∧ IsUtf8 (secs r) := by
    intro rs
    induction rs with
    | nil => simp [isUtf8_nil]
    | cons r rs ih =>
      rw [List.flatMap_cons, isUtf8_last (junitCase_last secs r), junitCase_utf8, ih]
      simp
  rw [isUtf8_append_ascii hc, List.append_assoc, isUtf8_ascii_append hh, isUtf8_last (xmlOpen_last _ _),
    cases_utf8, xmlOpen_utf8 (ascii_all (by decide +kernel))]
  simp only [List.mem_cons, List.not_mem_nil, or_false, forall_eq_or_imp, forall_eq]
  rw [attr_utf8 (ascii_all (by decide +kernel)), attr_utf8 (ascii_all (by decide +kernel)),
    attr_utf8 (ascii_all (by decide +kernel)), attr_utf8 (ascii_all (by decide +kernel)),
    attr_utf8 (ascii_all (by decide +kernel))]
  have h1 := hp (printable_showNat er.runs.length)
  have h2 := hp (printable_showNat (er.stats.get .fail))
  have h3 : IsUtf8 (showInt t ++ ['s']) :=
    (isUtf8_append_ascii (by unfold Ascii; decide)).2 (hp (printable_showInt t))
  tauto

/-! ## Examples -/

namespace Ex

/-- the bytes of `é` -/
def eAcute : Str := [Char.ofNat 0xC3, Char.ofNat 0xA9]

theorem eAcute_enc : Encodes eAcute ['é'] := by unfold Encodes; decide +kernel

/-- `caf` and the character, with a slash -/
def cafe : Str := "//caf".toList ++ eAcute

theorem cafe_enc : Encodes cafe "//café".toList := by unfold Encodes; decide +kernel

/-- a filter with the character finds the task -/
example : containsStr cafe eAcute = true :=
  (C96_filter cafe eAcute _ _ cafe_enc eAcute_enc).2 ⟨"//caf".toList, [], by decide +kernel⟩

/-- and one with another character that begins with the same byte does not -/
example : ¬ containsStr cafe [Char.ofNat 0xC3, Char.ofNat 0xA8] = true := by
  rw [C96_filter cafe _ _ ['è'] cafe_enc (by unfold Encodes; decide +kernel)]
  decide +kernel

/-- the output is cut within the character, and is shown as a text -/
example : IsUtf8 (formatNested "    ".toList [⟨.standard, "caf".toList ++ [Char.ofNat 0xC3]⟩,
    ⟨.standard, [Char.ofNat 0xA9] ++ "\n".toList⟩]) :=
  (C96_nested _ _ (ascii_all (by decide +kernel))).2 ⟨"café\n".toList, by unfold Encodes; decide +kernel⟩

/-- but a byte of the other stream came between -/
example : ¬ IsUtf8 (formatNested "    ".toList [⟨.standard, [Char.ofNat 0xC3]⟩, ⟨.error, ['!']⟩,
    ⟨.standard, [Char.ofNat 0xA9]⟩]) := by
  rw [C96_nested _ _ (ascii_all (by decide +kernel))]
  intro h
  have h' : IsUtf8 ([Char.ofNat 0xC3] ++ '!' :: [Char.ofNat 0xA9]) := h
  have := isUtf8_one ((isUtf8_ascii_iff (by decide)).1 h').1
  exact absurd this (by decide)

/-- the name in the report -/
example : ∃ t, fmtText 61 cafe = some t ∧ IsUtf8 t := by
  refine ⟨_, C40_text cafe, ?_⟩
  have h : IsUtf8 (cafe.take 60) := ⟨"//café".toList, cafe_enc⟩
  have hs : (fun c => if c = '/' then "\x1b[38;5;239m/\x1b[0m".toList else [c]) = slashed := by
    have hd : "\x1b[38;5;239m/\x1b[0m".toList = grayDelim := by decide +kernel
    rw [hd]; rfl
  rw [hs]
  have h2 := isUtf8_replace slashed_ascii [] (padRight 60 (cafe.take 60))
  rw [List.nil_append, List.nil_append] at h2
  rw [h2, padRight, isUtf8_append_ascii]
  · exact h
  · intro c hc
    rw [(List.mem_replicate.1 hc).2]; decide

/-- the command -/
example : IsUtf8 (formatCmd ["echo".toList, eAcute ++ [' '] ++ eAcute]) :=
  (C96_cmd _).2 fun a ha => by
    simp only [List.mem_cons, List.not_mem_nil, or_false] at ha
    rcases ha with rfl | rfl
    · exact ascii_utf8 (by decide +kernel)
    · exact ⟨['é', ' ', 'é'], by unfold Encodes; decide +kernel⟩

/-- a record that can be exported, and one that cannot -/
def cafeRun (cs : List Chunk) : ExecRecord :=
  { totalCount := 1
    stats := { ok := 1, skip := 0, depf := 0, fail := 0 }
    runs := [{ node := 0, t := 0, name := cafe, status := .ok, retcode := 0, start := 0, «end» := 1, output := cs }] }

example : ((cafeRun [⟨.standard, eAcute⟩]).toJson (fun _ => "now".toList) fun _ => 0).Printable := by
  rw [C96_json]
  have h1 : IsUtf8 "now".toList := ascii_utf8 (by decide +kernel)
  intro r hr
  rw [List.mem_singleton.1 hr]
  exact ⟨⟨_, cafe_enc⟩, h1, h1, fun c hc => by rw [List.mem_singleton.1 hc]; exact ⟨_, eAcute_enc⟩⟩

example : ¬ ((cafeRun [⟨.standard, eAcute.take 1⟩, ⟨.standard, eAcute.drop 1⟩]).toJson
    (fun _ => "now".toList) fun _ => 0).Printable := by
  rw [C96_json]
  intro h
  have := (h _ (List.mem_singleton.2 rfl)).2.2.2 ⟨.standard, eAcute.take 1⟩ (by simp)
  exact absurd (isUtf8_one (c := Char.ofNat 0xC3) this) (by decide)

/-- the JUnit report of both -/
example (cs : List Chunk) : ∃ doc, junitXml (fun n => n) (fun _ => "1".toList) "now".toList cafe
    (cafeRun cs) = some doc ∧ IsUtf8 doc := by
  have h1 : IsUtf8 "now".toList := ascii_utf8 (by decide +kernel)
  have h2 : IsUtf8 "1".toList := ascii_utf8 (by decide +kernel)
  obtain ⟨doc, hd⟩ : ∃ doc, junitXml (fun n => n) (fun _ => "1".toList) "now".toList cafe (cafeRun cs) =
    some doc := ⟨_, rfl⟩
  refine ⟨doc, hd, (C96_junit _ _ _ _ _ doc hd).2 ⟨⟨_, cafe_enc⟩, h1, ?_⟩⟩
  intro r hr
  rw [List.mem_singleton.1 hr]
  exact ⟨⟨_, cafe_enc⟩, h2⟩

/-- a name in a tree -/
example : IsUtf8 (fullName [eAcute, "b".toList]) :=
  C96_name (.mk [] [(eAcute, .mk [("b".toList, 7)] [])]) _ 7
    ((C24_visits _ _ _).2 ⟨[eAcute, "b".toList], .sub (List.mem_singleton.2 rfl) (.here (List.mem_singleton.2 rfl)), rfl⟩)
    (by
      intro p t h k hk
      cases h with
      | here h => simp at h
      | sub h h2 =>
        simp only [List.mem_singleton, Prod.mk.injEq] at h
        obtain ⟨rfl, rfl⟩ := h
        cases h2 with
        | here h3 =>
          simp only [List.mem_singleton, Prod.mk.injEq] at h3
          obtain ⟨rfl, rfl⟩ := h3
          simp only [List.mem_cons, List.not_mem_nil, or_false] at hk
          rcases hk with rfl | rfl
          · exact ⟨_, eAcute_enc⟩
          · exact ascii_utf8 (by decide +kernel)
        | sub h3 => simp at h3)

end Ex

end Joque
