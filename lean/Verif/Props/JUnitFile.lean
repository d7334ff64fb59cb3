import Verif.Model.JUnitFile
import Verif.Props.Exact

/-! # JUnit report to a file (C86) -/

namespace Joque

theorem junitToPath_some {d d' : Disk} {p : Str} {clock : Nat → Int} {secs : RunRecord → Str}
    {stamp tsName : Str} {er : ExecRecord}
    (h : junitToPath d p clock secs stamp tsName er = some d') :
    ∃ doc, junitXml clock secs stamp tsName er = some doc ∧
      (∀ q, d'.file q = if q = p ∧ d.canOpen p = true then some (doc.take d.room) else d.file q) ∧
      d'.canOpen = d.canOpen := by
  unfold junitToPath at h
  rw [Option.map_eq_some_iff] at h
  obtain ⟨doc, h1, rfl⟩ := h
  refine ⟨doc, h1, ?_, ?_⟩
  · intro q
    cases hc : d.canOpen p
    · simp [Disk.write, Disk.openOut, hc]
    · by_cases hq : q = p <;> simp [Disk.write, Disk.openOut, hc, hq]
  · cases hc : d.canOpen p <;> simp [Disk.write, Disk.openOut, hc]

/-- **C86** (partial).  If the file can be opened and the device has room, then afterwards the file
holds the report and nothing else, whatever it held before. -/
theorem C86_partial (d d' : Disk) (p : Str) (clock : Nat → Int) (secs : RunRecord → Str)
    (stamp tsName : Str) (er : ExecRecord)
    (h : junitToPath d p clock secs stamp tsName er = some d') (ho : d.canOpen p = true)
    (hroom : ∀ doc, junitXml clock secs stamp tsName er = some doc → doc.length ≤ d.room) :
    d'.file p = junitXml clock secs stamp tsName er := by
  obtain ⟨doc, h1, h2, _⟩ := junitToPath_some h
  rw [h2, h1, if_pos ⟨rfl, ho⟩, List.take_of_length_le (hroom doc h1)]

/-- **C86**.  No other file is touched. -/
theorem C86_others (d d' : Disk) (p : Str) (clock : Nat → Int) (secs : RunRecord → Str)
    (stamp tsName : Str) (er : ExecRecord)
    (h : junitToPath d p clock secs stamp tsName er = some d') (q : Str) (hq : q ≠ p) :
    d'.file q = d.file q := by
  obtain ⟨doc, _, h2, _⟩ := junitToPath_some h
  rw [h2, if_neg (fun hc => hq hc.1)]

/-- **C86**.  What was in the file and what is written are never mixed: the file holds a beginning of
the new report, or (not opened) what it held. -/
theorem C86_unmixed (d d' : Disk) (p : Str) (clock : Nat → Int) (secs : RunRecord → Str)
    (stamp tsName : Str) (er : ExecRecord)
    (h : junitToPath d p clock secs stamp tsName er = some d') :
    (∃ doc part, junitXml clock secs stamp tsName er = some doc ∧ d'.file p = some part ∧
      part <+: doc) ∨ d'.file p = d.file p := by
  obtain ⟨doc, h1, h2, _⟩ := junitToPath_some h
  cases hc : d.canOpen p
  · right; rw [h2, hc]; simp
  · left
    exact ⟨doc, doc.take d.room, h1, by rw [h2, hc]; simp, List.take_prefix _ _⟩

/-- **C86**.  Reading the file back with an XML reader gives the report, for at least one record and
clean names. -/
theorem C86_read (d d' : Disk) (p : Str) (clock : Nat → Int) (secs : RunRecord → Str)
    (stamp tsName : Str) (er : ExecRecord)
    (h : junitToPath d p clock secs stamp tsName er = some d') (ho : d.canOpen p = true)
    (hroom : ∀ doc, junitXml clock secs stamp tsName er = some doc → doc.length ≤ d.room)
    (hne : er.runs ≠ []) (hstamp : XmlClean stamp) (hts : XmlClean tsName)
    (hr : ∀ r ∈ er.runs, XmlClean r.name ∧ XmlClean (secs r)) :
    ∃ t, runtimeSum clock er = some t ∧
      (d'.file p).bind parseXml = some (suiteTree t secs stamp tsName er) := by
  obtain ⟨t, doc, h1, h2, h3⟩ := C42_partial clock secs stamp tsName er hne hstamp hts hr
  refine ⟨t, h1, ?_⟩
  rw [C86_partial d d' p clock secs stamp tsName er h ho hroom, h2]
  exact h3

/-- **C86**, exactly: afterwards the file holds the report iff it could be opened and the device had
room, or it could not be opened and held that very report before. -/
theorem C86_exact (d d' : Disk) (p : Str) (clock : Nat → Int) (secs : RunRecord → Str)
    (stamp tsName : Str) (er : ExecRecord) (doc : Str)
    (hdoc : junitXml clock secs stamp tsName er = some doc)
    (h : junitToPath d p clock secs stamp tsName er = some d') :
    d'.file p = some doc ↔
      (d.canOpen p = true ∧ doc.length ≤ d.room) ∨ (d.canOpen p = false ∧ d.file p = some doc) := by
  obtain ⟨doc', h1, h2, _⟩ := junitToPath_some h
  rw [hdoc] at h1
  cases h1
  rw [h2]
  cases hc : d.canOpen p
  · simp
  · simp only [and_self, if_true, Option.some.injEq, Bool.true_eq_false, false_and, or_false, true_and]
    refine ⟨fun h => ?_, List.take_of_length_le⟩
    have := congrArg List.length h
    rw [List.length_take] at this
    omega

/-- **C86** is false: a file that cannot be opened (its directory is missing, say) is not written,
and a full device cuts the report short.  The caller gets the same answer in all cases: the function
returns. -/
theorem C86_counterexample (clock : Nat → Int) (secs : RunRecord → Str) (stamp tsName : Str)
    (er : ExecRecord) (hne : er.runs ≠ []) (p : Str) :
    (∃ d d', d.file p = none ∧ junitToPath d p clock secs stamp tsName er = some d' ∧
      d'.file p = none) ∧
    (∃ d d', junitToPath d p clock secs stamp tsName er = some d' ∧ d'.file p = some []) ∧
    ∀ d, ∃ d', junitToPath d p clock secs stamp tsName er = some d' := by
  obtain ⟨t, ht, -⟩ := C41_least clock er hne
  have hall : ∀ d, ∃ d', junitToPath d p clock secs stamp tsName er = some d' := by
    intro d
    exact ⟨_, by rw [junitToPath, junitXml, ht]; rfl⟩
  refine ⟨?_, ?_, hall⟩
  · obtain ⟨d', h⟩ := hall ⟨fun _ => none, fun _ => false, 0⟩
    refine ⟨_, d', rfl, h, ?_⟩
    obtain ⟨_, _, h2, _⟩ := junitToPath_some h
    rw [h2]; simp
  · obtain ⟨d', h⟩ := hall ⟨fun _ => none, fun _ => true, 0⟩
    refine ⟨_, d', h, ?_⟩
    obtain ⟨_, _, h2, _⟩ := junitToPath_some h
    rw [h2]; simp

/-- one root is complete and something else has been begun -/
def Beyond (s : XSt) : Prop :=
  2 ≤ s.roots.length ∨ (1 ≤ s.roots.length ∧ (s.stack ≠ [] ∨ (s.mode ≠ .text ∧ s.mode ≠ .decl)))

theorem beyond_step {s s' : XSt} {c : Char} (hd : s.roots ≠ [] → s.mode ≠ .decl)
    (h : Beyond s) (hs : xstep s c = some s') :
    Beyond s' ∧ (s'.roots ≠ [] → s'.mode ≠ .decl) := by
  obtain ⟨st, rt, m⟩ := s
  unfold Beyond at h
  cases m <;> simp only [xstep] at hs <;> (repeat' split at hs) <;>
    (try cases hs) <;> simp_all [Beyond, XSt.add]
  · omega
  · rename_i rest h1
    cases rest <;> simp <;> omega
  · obtain ⟨a, _, rfl⟩ := hs
    simpa using h
  · cases st <;> simp <;> omega

theorem beyond_run {s s' : XSt} {w : Str} (hd : s.roots ≠ [] → s.mode ≠ .decl)
    (h : Beyond s) (hs : xrun s w = some s') : Beyond s' := by
  induction w generalizing s with
  | nil => simp [xrun] at hs; rw [← hs]; exact h
  | cons c w ih =>
    rw [xrun] at hs
    obtain ⟨s1, h1, h2⟩ := Option.bind_eq_some_iff.1 hs
    obtain ⟨h3, h4⟩ := beyond_step hd h h1
    exact ih h4 h3 h2

/-- after a complete document only white space can follow -/
theorem xml_tail {x y : Xml} {w : Str} (h : xrun ⟨[], [y], .text⟩ w = some ⟨[], [x], .text⟩) :
    ∀ c ∈ w, xmlWs c = true := by
  induction w with
  | nil => simp
  | cons c w ih =>
    rw [xrun] at h
    obtain ⟨s1, h1, h2⟩ := Option.bind_eq_some_iff.1 h
    unfold xstep at h1
    simp only at h1
    split at h1
    · exfalso
      cases h1
      have := beyond_run (s := ⟨[], [y], .lt⟩) (by simp) (by simp [Beyond]) h2
      simp [Beyond] at this
    · simp only [List.isEmpty_nil, if_true] at h1
      split at h1
      · rename_i hw
        cases h1
        simp only [List.mem_cons, forall_eq_or_imp]
        exact ⟨hw, ih h2⟩
      · cases h1

/-- **C86**.  When the report is cut short, what is in the file is not a document: no XML reader takes
a shorter text for the report (for at least one record and clean names). -/
theorem C86_cut (d d' : Disk) (p : Str) (clock : Nat → Int) (secs : RunRecord → Str)
    (stamp tsName : Str) (er : ExecRecord) (doc : Str)
    (hdoc : junitXml clock secs stamp tsName er = some doc)
    (h : junitToPath d p clock secs stamp tsName er = some d') (ho : d.canOpen p = true)
    (hroom : d.room + 1 < doc.length) (hstamp : XmlClean stamp) (hts : XmlClean tsName)
    (hr : ∀ r ∈ er.runs, XmlClean r.name ∧ XmlClean (secs r)) :
    (d'.file p).bind parseXml = none := by
  obtain ⟨doc', h1, h2, _⟩ := junitToPath_some h
  rw [hdoc] at h1
  cases h1
  rw [h2, if_pos ⟨rfl, ho⟩, Option.bind_some]
  have hne : er.runs ≠ [] := by
    intro hnil
    rw [junitXml, runtimeSum, hnil] at hdoc
    cases hdoc
  obtain ⟨t, doc', e1, e2, e3⟩ := C42_partial clock secs stamp tsName er hne hstamp hts hr
  rw [hdoc] at e2
  cases e2
  obtain ⟨body, hbody⟩ : ∃ body, doc = body ++ ['>', '\n'] := by
    rw [junitXml, e1] at hdoc
    simp only [Option.map_some, Option.some.injEq, xmlClose] at hdoc
    exact ⟨_, by rw [← hdoc, ← List.append_assoc]⟩
  have final : ∀ {l : Str} {z : Xml}, parseXml l = some z →
      xrun XSt.init l = some ⟨[], [z], .text⟩ := by
    intro l z hz
    unfold parseXml at hz
    split at hz
    · rename_i h; rw [h]; cases hz; rfl
    · cases hz
  cases hu : parseXml (doc.take d.room) with
  | none => rfl
  | some y =>
    exfalso
    have f1 := final hu
    have f2 := final e3
    rw [← List.take_append_drop d.room doc, xrun_then _ f1] at f2
    have hws := xml_tail f2 '>' (by
      rw [hbody, List.drop_append_of_le_length (by
        rw [hbody] at hroom; simp at hroom; omega)]
      simp)
    simp [xmlWs] at hws

/-- a file with an old report, written with room enough: the new report is in it -/
example : let er := (exec (Ex.cfg 2) Ex.done2).erec
    ((junitToPath ⟨fun _ => some ['o', 'l', 'd'], fun _ => true, 5000⟩ ['r'] (fun i => i) (fun _ => ['1'])
      ['n'] ['s'] er).map fun d => (d.file ['r'], d.file ['q'])) =
      some (junitXml (fun i => i) (fun _ => ['1']) ['n'] ['s'] er, some ['o', 'l', 'd']) ∧
    ((junitXml (fun i => i) (fun _ => ['1']) ['n'] ['s'] er).map fun doc =>
      decide (300 < doc.length ∧ doc.length ≤ 5000)) = some true := by decide +kernel

/-- with room for 200 characters only, no document is left -/
example : let er := (exec (Ex.cfg 2) Ex.done2).erec
    ((junitToPath ⟨fun _ => none, fun _ => true, 200⟩ ['r'] (fun i => i) (fun _ => ['1'])
      ['n'] ['s'] er).map fun d => ((d.file ['r']).map List.length, ((d.file ['r']).bind parseXml).isSome)) =
      some (some 200, false) := by decide +kernel

end Joque
