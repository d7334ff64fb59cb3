import Verif.Proof.JUnit
import Verif.Props.Format2

/-!
# JUnit report

C42 structure and counts, C43 escaping, C58 times.
-/

namespace Joque

/-- the element expected for a task -/
def caseTree (secs : RunRecord → Str) (r : RunRecord) : Xml :=
  .elem "testcase".toList [("name".toList, r.name), ("time".toList, secs r)]
    (if r.retcode ≠ 0 then [.elem "failure".toList [("message".toList, "task failed".toList)] []] else [])

/-- the report expected for a record with total run time `t` -/
def suiteTree (t : Int) (secs : RunRecord → Str) (stamp tsName : Str) (er : ExecRecord) : Xml :=
  .elem "testsuite".toList
    [("name".toList, tsName), ("tests".toList, showNat er.runs.length),
      ("failures".toList, showNat (er.stats.get .fail)), ("time".toList, showInt t ++ ['s']),
      ("timestamp".toList, stamp)]
    (er.runs.map (caseTree secs))

theorem clean_of_all {s : Str}
    (h : s.all (fun c => c ≠ '"' && c ≠ '<' && c ≠ '&' && decide (32 ≤ c.toNat)) = true) : XmlClean s := by
  intro c hc
  have := List.all_eq_true.1 h c hc
  simp only [Bool.and_eq_true, decide_eq_true_eq] at this
  exact ⟨this.1.1.1, this.1.1.2, this.1.2, this.2⟩

/-- reading the opening tag of a task -/
theorem xrun_caseOpen (secs : RunRecord → Str) (r : RunRecord) (hn : XmlClean r.name)
    (hs : XmlClean (secs r)) (st : List (Str × List (Str × Str) × List Xml)) (rt : List Xml) :
    xrun ⟨st, rt, .text⟩
      (xmlOpen "testcase".toList [attr "name".toList r.name, attr "time".toList (secs r)])
      = some ⟨("testcase".toList, [("name".toList, r.name), ("time".toList, secs r)], []) :: st, rt, .text⟩ := by
  refine xrun_open st rt "testcase".toList (by decide +kernel)
    [("name".toList, r.name), ("time".toList, secs r)] (List.cons_ne_nil _ _) ?_ (by
      show ["name".toList, "time".toList].Nodup
      decide +kernel)
  intro p hp
  simp only [List.mem_cons, List.not_mem_nil, or_false] at hp
  rcases hp with rfl | rfl
  · exact ⟨by dsimp only; decide +kernel, hn⟩
  · exact ⟨by dsimp only; decide +kernel, hs⟩

theorem xrun_failure (m : Str) (ma : List (Str × Str)) (ch : List Xml)
    (st : List (Str × List (Str × Str) × List Xml)) (rt : List Xml) :
    xrun ⟨(m, ma, ch) :: st, rt, .text⟩ "<failure message=\"task failed\"/>\n".toList
      = some ⟨(m, ma, ch ++ [.elem "failure".toList [("message".toList, "task failed".toList)] []]) :: st,
          rt, .text⟩ := by
  have h := xrun_empty m ma ch st rt "failure".toList (by decide +kernel)
    [("message".toList, "task failed".toList)] (List.cons_ne_nil _ _) (by
      intro p hp
      rw [List.mem_singleton] at hp
      subst hp
      exact ⟨by decide +kernel, clean_of_all (by decide +kernel)⟩) (List.nodup_singleton _)
  have e : "<failure message=\"task failed\"/>\n".toList = ['<'] ++ "failure".toList
      ++ [("message".toList, "task failed".toList)].flatMap (fun p => [' '] ++ attr p.1 p.2)
      ++ ['/', '>', '\n'] := by decide +kernel
  rw [e]; exact h

theorem xrun_case (secs : RunRecord → Str) (r : RunRecord) (hn : XmlClean r.name)
    (hs : XmlClean (secs r)) (m : Str) (ma : List (Str × Str)) (ch : List Xml)
    (st : List (Str × List (Str × Str) × List Xml)) (rt : List Xml) :
    xrun ⟨(m, ma, ch) :: st, rt, .text⟩ (junitCase secs r)
      = some ⟨(m, ma, ch ++ [caseTree secs r]) :: st, rt, .text⟩ := by
  unfold junitCase caseTree
  rw [List.append_assoc, xrun_then _ (xrun_caseOpen secs r hn hs _ rt)]
  by_cases h : r.retcode ≠ 0
  · rw [if_pos h, if_pos h, xrun_then _ (xrun_failure _ _ _ _ rt),
      xrun_close _ (by decide +kernel)]
    rfl
  · rw [if_neg h, if_neg h, List.nil_append, xrun_close _ (by decide +kernel)]
    rfl

theorem xrun_cases (secs : RunRecord → Str) (rs : List RunRecord)
    (h : ∀ r ∈ rs, XmlClean r.name ∧ XmlClean (secs r)) (m : Str) (ma : List (Str × Str)) (ch : List Xml)
    (st : List (Str × List (Str × Str) × List Xml)) (rt : List Xml) :
    xrun ⟨(m, ma, ch) :: st, rt, .text⟩ (rs.flatMap (junitCase secs))
      = some ⟨(m, ma, ch ++ rs.map (caseTree secs)) :: st, rt, .text⟩ := by
  induction rs generalizing ch with
  | nil => simp [xrun]
  | cons r rs ih =>
    rw [List.flatMap_cons, xrun_then _ (xrun_case secs r (h r (by simp)).1 (h r (by simp)).2 m ma ch st rt),
      ih (fun r hr => h r (List.mem_cons_of_mem _ hr))]
    simp

/-- prolog and opening tag of the report -/
def junitHead (t : Int) (stamp tsName : Str) (er : ExecRecord) : Str :=
  "<?xml version=\"1.0\" encoding=\"UTF-8\"?>\n".toList
    ++ xmlOpen "testsuite".toList
      [attr "name".toList tsName, attr "tests".toList (showNat er.runs.length),
        attr "failures".toList (showNat (er.stats.get .fail)),
        attr "time".toList (showInt t ++ ['s']), attr "timestamp".toList stamp]

theorem xrun_head (t : Int) (stamp tsName : Str) (er : ExecRecord) (hstamp : XmlClean stamp)
    (hts : XmlClean tsName) :
    xrun XSt.init (junitHead t stamp tsName er) = some
      ⟨[("testsuite".toList, [("name".toList, tsName), ("tests".toList, showNat er.runs.length),
        ("failures".toList, showNat (er.stats.get .fail)), ("time".toList, showInt t ++ ['s']),
        ("timestamp".toList, stamp)], [])], [], .text⟩ := by
  have e : xrun XSt.init "<?xml version=\"1.0\" encoding=\"UTF-8\"?>\n".toList = some ⟨[], [], .text⟩ := by
    with_unfolding_all rfl
  unfold junitHead
  rw [xrun_then _ e]
  refine xrun_open [] [] "testsuite".toList (by decide +kernel)
    [("name".toList, tsName), ("tests".toList, showNat er.runs.length),
      ("failures".toList, showNat (er.stats.get .fail)), ("time".toList, showInt t ++ ['s']),
      ("timestamp".toList, stamp)] (List.cons_ne_nil _ _) ?_ (by
        show ["name".toList, "tests".toList, "failures".toList, "time".toList, "timestamp".toList].Nodup
        decide +kernel)
  intro p hp
  simp only [List.mem_cons, List.not_mem_nil, or_false] at hp
  rcases hp with rfl | rfl | rfl | rfl | rfl
  · exact ⟨by dsimp only; decide +kernel, hts⟩
  · exact ⟨by dsimp only; decide +kernel, clean_digits _⟩
  · exact ⟨by dsimp only; decide +kernel, clean_digits _⟩
  · exact ⟨by dsimp only; decide +kernel, clean_append (clean_showInt t) (clean_of_all (by decide))⟩
  · exact ⟨by dsimp only; decide +kernel, hstamp⟩

/-- **C42** (partial).  If there is at least one record and the names are free of the characters that
have a meaning in XML, the report is read back as one `testsuite` with one `testcase` per record, in
order, a `failure` in those with a return code other than zero, and the expected attributes. -/
theorem C42_partial (clock : Nat → Int) (secs : RunRecord → Str) (stamp tsName : Str) (er : ExecRecord)
    (hne : er.runs ≠ []) (hstamp : XmlClean stamp) (hts : XmlClean tsName)
    (hr : ∀ r ∈ er.runs, XmlClean r.name ∧ XmlClean (secs r)) :
    ∃ t doc, runtimeSum clock er = some t ∧ junitXml clock secs stamp tsName er = some doc ∧
      parseXml doc = some (suiteTree t secs stamp tsName er) := by
  obtain ⟨t, ht, -⟩ := C41_least clock er hne
  refine ⟨t, _, ht, by rw [junitXml, ht]; rfl, ?_⟩
  show parseXml (junitHead t stamp tsName er ++ er.runs.flatMap (junitCase secs)
    ++ xmlClose "testsuite".toList) = _
  unfold parseXml
  rw [List.append_assoc, xrun_then _ (xrun_head t stamp tsName er hstamp hts),
    xrun_then _ (xrun_cases secs er.runs hr _ _ _ _ _), xrun_close _ (by decide +kernel)]
  rfl

mutual
/-- number of elements called `n` -/
def Xml.count (n : Str) : Xml → Nat
  | .elem m _ ch => (if m = n then 1 else 0) + Xml.countAll n ch
def Xml.countAll (n : Str) : List Xml → Nat
  | [] => 0
  | x :: xs => Xml.count n x + Xml.countAll n xs
end

theorem count_cases (secs : RunRecord → Str) (rs : List RunRecord) :
    Xml.countAll "testcase".toList (rs.map (caseTree secs)) = rs.length ∧
    Xml.countAll "failure".toList (rs.map (caseTree secs)) = rs.countP (fun r => r.retcode ≠ 0) := by
  have n1 : ¬ "failure".toList = "testcase".toList := by decide +kernel
  have n2 : ¬ "testcase".toList = "failure".toList := by decide +kernel
  induction rs with
  | nil => exact ⟨rfl, rfl⟩
  | cons r rs ih =>
    rw [List.map_cons, Xml.countAll, Xml.countAll, ih.1, ih.2, List.length_cons, List.countP_cons]
    unfold caseTree
    rw [Xml.count, Xml.count, if_pos rfl, if_neg n2]
    by_cases h : r.retcode ≠ 0
    · rw [if_pos h]
      simp only [Xml.countAll, Xml.count, if_neg n1]
      simp [h]; omega
    · rw [if_neg h]
      simp only [Xml.countAll]
      simp at h
      simp [h]; omega

/-- **C42**, counts.  For every record an execution hands out: the numbers in the attributes `tests` and
`failures` are the numbers of `testcase` and `failure` elements. -/
theorem C42_counts (C : Cfg) (hwf : C.dag.WF) (ms : List Move) (t : Int) (secs : RunRecord → Str)
    (stamp tsName : Str) :
    let er := (exec C ms).erec
    Xml.count "testcase".toList (suiteTree t secs stamp tsName er) = er.runs.length ∧
    Xml.count "failure".toList (suiteTree t secs stamp tsName er) = er.stats.get .fail := by
  intro er
  have n1 : ¬ "testsuite".toList = "testcase".toList := by decide +kernel
  have n2 : ¬ "testsuite".toList = "failure".toList := by decide +kernel
  obtain ⟨h1, h2⟩ := count_cases secs er.runs
  unfold suiteTree
  rw [Xml.count, Xml.count, if_neg n1, if_neg n2, h1, h2]
  refine ⟨Nat.zero_add _, ?_⟩
  rw [Nat.zero_add, (C13_stats C hwf ms er (.inl rfl)).1 .fail]
  refine List.countP_congr ?_
  intro r hr
  have := C06_retcode C hwf ms r (by rw [(tinv_exec hwf ms).recs]; exact hr)
  simp only [decide_eq_true_eq]
  exact this

/-- **C42** is false for an execution without tasks: no report, undefined behaviour instead. -/
theorem C42_counterexample :
    ∃ ms, (exec emptyCfg ms).phase = .finished ∧
      ∀ clock secs stamp tsName, junitXml clock secs stamp tsName (exec emptyCfg ms).erec = none := by
  obtain ⟨_, ms, h1, _, h2⟩ := C41_counterexample
  exact ⟨ms, h1, fun clock secs stamp tsName => by rw [junitXml, (h2 clock []).1]; rfl⟩

example : (exec (Ex.cfg 2) Ex.done2).erec.runs ≠ [] ∧
    ((junitXml (fun i => i) (fun _ => ['1']) ['n'] ['s'] (exec (Ex.cfg 2) Ex.done2).erec).bind
      parseXml).isSome = true := by decide +kernel

/-! ## C43 -/

/-- one successful task of the given name -/
def oneRun (name : Str) : ExecRecord :=
  { stats := { ok := 1, skip := 0, depf := 0, fail := 0 }, totalCount := 1
    runs := [{ node := 0, t := 0, name := name, status := .ok, retcode := 0, start := 0, «end» := 0, output := [] }] }

/-- **C43** (partial).  Reports of tasks and suites with harmless names are well formed. -/
theorem C43_partial (clock : Nat → Int) (secs : RunRecord → Str) (stamp tsName : Str) (er : ExecRecord)
    (hne : er.runs ≠ []) (hstamp : XmlClean stamp) (hts : XmlClean tsName)
    (hr : ∀ r ∈ er.runs, XmlClean r.name ∧ XmlClean (secs r)) :
    ∃ doc x, junitXml clock secs stamp tsName er = some doc ∧ parseXml doc = some x := by
  obtain ⟨_, doc, _, h1, h2⟩ := C42_partial clock secs stamp tsName er hne hstamp hts hr
  exact ⟨doc, _, h1, h2⟩

/-- reading a name stops at the first `<` -/
theorem xrun_value_lt (st : List (Str × List (Str × Str) × List Xml)) (rt : List Xml) (n k a b : Str)
    (as : List (Str × Str)) (ha : XmlClean a) :
    xrun ⟨st, rt, .val n as k []⟩ (a ++ '<' :: b) = none := by
  rw [xrun_then _ (xrun_value st rt n as k a [] ha)]; rfl

/-- A `<` in the name of any task, preceded by harmless text only, makes the report ill formed. -/
theorem C43_lt_breaks (clock : Nat → Int) (secs : RunRecord → Str) (stamp tsName : Str) (er : ExecRecord)
    (hstamp : XmlClean stamp) (hts : XmlClean tsName) (rs1 rs2 : List RunRecord) (r : RunRecord)
    (hruns : er.runs = rs1 ++ r :: rs2) (hr : ∀ r ∈ rs1, XmlClean r.name ∧ XmlClean (secs r))
    (a b : Str) (hname : r.name = a ++ '<' :: b) (ha : XmlClean a) :
    ∃ doc, junitXml clock secs stamp tsName er = some doc ∧ parseXml doc = none := by
  obtain ⟨t, ht, -⟩ := C41_least clock er (by rw [hruns]; simp)
  refine ⟨_, by rw [junitXml, ht]; rfl, ?_⟩
  show parseXml (junitHead t stamp tsName er ++ er.runs.flatMap (junitCase secs)
    ++ xmlClose "testsuite".toList) = _
  unfold parseXml
  rw [List.append_assoc, xrun_then _ (xrun_head t stamp tsName er hstamp hts), hruns,
    List.flatMap_append, List.flatMap_cons, List.append_assoc,
    xrun_then _ (xrun_cases secs rs1 hr _ _ _ _ _)]
  have hcase : ∃ rest, junitCase secs r = (['<'] ++ "testcase".toList) ++ (" name=\"".toList
      ++ (a ++ '<' :: (b ++ rest))) := by
    refine ⟨?rest, ?_⟩
    case rest =>
      exact '"' :: ([' '] ++ attr "time".toList (secs r) ++ (['>', '\n'] ++
        ((if r.retcode ≠ 0 then "<failure message=\"task failed\"/>\n".toList else [])
          ++ xmlClose "testcase".toList)))
    have e : " name=\"".toList = [' '] ++ ("name".toList ++ ['=', '"']) := by decide +kernel
    rw [e]
    unfold junitCase xmlOpen
    rw [hname]
    simp only [List.flatMap_cons, List.flatMap_nil]
    conv => lhs; unfold attr
    unfold attr
    simp only [List.append_assoc, List.cons_append, List.nil_append, List.append_nil]
  obtain ⟨rest, hcase⟩ := hcase
  rw [hcase]
  simp only [List.append_assoc]
  rw [← List.append_assoc ['<'], xrun_then _ (xrun_lt _ _ "testcase".toList (by decide +kernel))]
  have e2 : ∀ st rt n, xrun ⟨st, rt, .tag n⟩ " name=\"".toList
      = some ⟨st, rt, .val n [] "name".toList []⟩ := by
    intro st rt n
    with_unfolding_all rfl
  rw [xrun_then _ (e2 _ _ _)]
  simp only [List.cons_append]
  rw [xrun_value_lt _ _ _ _ a _ _ ha]

/-- **C43** is false: a quote, `<` or `&` in a task name, or in the name of the suite, gives a report that is
not well formed, and the name `&lt;` one in which the task has another name. -/
theorem C43_counterexample :
    (∀ name ∈ ["a\"b".toList, "a<b".toList, "a&b".toList],
      ∃ doc, junitXml (fun i => i) (fun _ => ['0']) ['n'] ['s'] (oneRun name) = some doc ∧
        (parseXml doc).isNone = true) ∧
    (∃ doc, junitXml (fun i => i) (fun _ => ['0']) ['n'] "a\"b".toList (oneRun ['x']) = some doc ∧
        (parseXml doc).isNone = true) ∧
    (∃ doc a b ch a' b', junitXml (fun i => i) (fun _ => ['0']) ['n'] ['s'] (oneRun "&lt;".toList) = some doc ∧
        parseXml doc = some (.elem a b [.elem a' (("name".toList, "<".toList) :: b') ch])) := by
  refine ⟨?_, ?_, ?_⟩
  · intro name hn
    simp only [List.mem_cons, List.not_mem_nil, or_false] at hn
    rcases hn with rfl | rfl | rfl <;> exact ⟨_, rfl, by decide +kernel⟩
  · exact ⟨_, rfl, by decide +kernel⟩
  · exact ⟨_, _, _, _, _, _, rfl, by with_unfolding_all rfl⟩

/-! ## C58 -/

/-- a number as XML schema's `decimal` allows: digits, at most a sign and a point -/
def Decimal (s : Str) : Prop := s ≠ [] ∧ ∀ c ∈ s, c.isDigit = true ∨ c = '.' ∨ c = '-' ∨ c = '+'

/-- **C58**: the time given for the suite is never a number: it ends with the unit. -/
theorem C58_suite_never (clock : Nat → Int) (secs : RunRecord → Str) (stamp tsName : Str) (er : ExecRecord)
    (hne : er.runs ≠ []) (hstamp : XmlClean stamp) (hts : XmlClean tsName)
    (hr : ∀ r ∈ er.runs, XmlClean r.name ∧ XmlClean (secs r)) :
    ∃ doc n as ch v, junitXml clock secs stamp tsName er = some doc ∧
      parseXml doc = some (.elem n as ch) ∧ ("time".toList, v) ∈ as ∧ ¬ Decimal v := by
  obtain ⟨t, doc, _, h1, h2⟩ := C42_partial clock secs stamp tsName er hne hstamp hts hr
  refine ⟨doc, _, _, _, showInt t ++ ['s'], h1, h2, by simp, ?_⟩
  intro h
  have := h.2 's' (by simp)
  exact absurd this (by decide)

/-- **C58** (partial): without the unit it is the decimal number of seconds; and the time of a task is
whatever the library shows for the duration, unchanged. -/
theorem C58_partial (clock : Nat → Int) (secs : RunRecord → Str) (stamp tsName : Str) (er : ExecRecord)
    (hne : er.runs ≠ []) (hstamp : XmlClean stamp) (hts : XmlClean tsName)
    (hr : ∀ r ∈ er.runs, XmlClean r.name ∧ XmlClean (secs r)) :
    ∃ t doc n as, runtimeSum clock er = some t ∧ junitXml clock secs stamp tsName er = some doc ∧
      parseXml doc = some (.elem n as (er.runs.map (caseTree secs))) ∧
      ("time".toList, showInt t ++ ['s']) ∈ as ∧ Decimal (showInt t) ∧
      ∀ r, ∃ n' ch', caseTree secs r = .elem n' [("name".toList, r.name), ("time".toList, secs r)] ch' := by
  obtain ⟨t, doc, h0, h1, h2⟩ := C42_partial clock secs stamp tsName er hne hstamp hts hr
  refine ⟨t, doc, _, _, h0, h1, h2, by simp, ?_, fun r => ⟨_, _, rfl⟩⟩
  have hd : ∀ n : Nat, ∀ c ∈ Nat.toDigits 10 n, c.isDigit = true :=
    fun n c hc => Nat.isDigit_of_mem_toDigits (b := 10) (by decide) (by decide) hc
  unfold showInt
  split
  · refine ⟨List.cons_ne_nil _ _, ?_⟩
    intro c hc
    rcases List.mem_cons.1 hc with rfl | hc
    · simp
    · exact .inl (hd _ c hc)
  · exact ⟨Nat.toDigits_ne_nil, fun c hc => .inl (hd _ c hc)⟩

/-- **C58** is false, for an execution of the example. -/
theorem C58_counterexample :
    (exec (Ex.cfg 2) Ex.done2).phase = .finished ∧
    ∃ doc n as ch v, junitXml (fun i => i) (fun _ => ['1']) ['n'] ['s'] (exec (Ex.cfg 2) Ex.done2).erec = some doc ∧
      parseXml doc = some (.elem n as ch) ∧ ("time".toList, v) ∈ as ∧ ¬ Decimal v := by
  refine ⟨Ex.fin2, C58_suite_never _ _ _ _ _ (by decide +kernel) (clean_of_all (by decide))
    (clean_of_all (by decide)) ?_⟩
  intro r hr
  refine ⟨clean_of_all ?_, clean_of_all (by decide)⟩
  have : (exec (Ex.cfg 2) Ex.done2).erec.runs.all (fun r => r.name.all
      (fun c => c ≠ '"' && c ≠ '<' && c ≠ '&' && decide (32 ≤ c.toNat))) = true := by decide +kernel
  exact List.all_eq_true.1 this r hr

end Joque
