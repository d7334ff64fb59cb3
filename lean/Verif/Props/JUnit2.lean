import Verif.Proof.JUnit2
import Verif.Props.JUnit

/-! # C43: which names survive in the report -/

namespace Joque

/-- the attribute `name` -/
def Xml.nameAttr : Xml → Option Str
  | .elem _ as _ => (as.find? fun p => p.1 = "name".toList).map Prod.snd

def Xml.kids : Xml → List Xml
  | .elem _ _ ch => ch

theorem nameAttr_first (n v : Str) (as : List (Str × Str)) (ch : List Xml) :
    (Xml.elem n (("name".toList, v) :: as) ch).nameAttr = some v := by
  unfold Xml.nameAttr
  generalize "name".toList = nm
  simp

/-- from the first character of the value of the attribute `name` -/
theorem xrun_first_name (st : List XFrame) (rt : List Xml) (n d rest : Str) (x : Xml)
    (h : xdone (xrun ⟨st, rt, .val n [] "name".toList []⟩ (d ++ '"' :: rest)) = some x) :
    ∃ v rest', xrun ⟨st, rt, .val n [] "name".toList []⟩ (d ++ '"' :: rest) =
        xrun ⟨st, rt, .afterVal n [("name".toList, v)]⟩ rest' ∧ (v = d → XmlClean d) := by
  rcases xrun_quoted st rt n [] "name".toList d.length d [] rest (Nat.le_refl _) with h1 |
    ⟨v, rest', h1, _, h2⟩
  · exact absurd h (h1 x)
  · refine ⟨v, rest', ?_, h2⟩
    rw [h1]
    generalize "name".toList = nm
    rfl

/-- reading up to the value of the attribute `name` of a new element -/
theorem xrun_to_name (st : List XFrame) (rt : List Xml) (n : Str) (hn : isName n = true) (b : Str) :
    xrun ⟨st, rt, .text⟩ (['<'] ++ n ++ (" name=\"".toList ++ b)) =
      xrun ⟨st, rt, .val n [] "name".toList []⟩ b := by
  have e1 : xrun ⟨st, rt, .text⟩ (['<'] ++ n) = some ⟨st, rt, .tag n⟩ := by
    cases n with
    | nil => cases hn
    | cons c cs =>
      simp only [isName, Bool.and_eq_true] at hn
      have hc : c ≠ '/' ∧ c ≠ '?' := by
        constructor
        · rintro rfl; exact absurd hn.1 (by decide)
        · rintro rfl; exact absurd hn.1 (by decide)
      have e : xstep ⟨st, rt, .lt⟩ c = some ⟨st, rt, .tag [c]⟩ := by
        unfold xstep; dsimp only; rw [if_neg hc.1, if_neg hc.2, if_pos hn.1]
      show (xstep ⟨st, rt, .lt⟩ c).bind _ = _
      rw [e]
      exact xrun_tagName st rt cs [c] hn.2
  rw [xrun_then _ e1]
  have e2 : xrun ⟨st, rt, .tag n⟩ " name=\"".toList = some ⟨st, rt, .val n [] "name".toList []⟩ := by
    with_unfolding_all rfl
  rw [xrun_then _ e2]

/-- the head of the report up to the name of the suite -/
theorem junitHead_split (t : Int) (stamp tsName : Str) (er : ExecRecord) :
    ∃ rest, junitHead t stamp tsName er = "<?xml version=\"1.0\" encoding=\"UTF-8\"?>\n".toList ++
      (['<'] ++ "testsuite".toList ++ (" name=\"".toList ++ (tsName ++ '"' :: rest))) := by
  have e : " name=\"".toList = [' '] ++ ("name".toList ++ ['=', '"']) := by decide +kernel
  refine ⟨?rest, ?_⟩
  case rest =>
    exact [' '] ++ attr "tests".toList (showNat er.runs.length) ++
      ([' '] ++ attr "failures".toList (showNat (er.stats.get .fail)) ++
      ([' '] ++ attr "time".toList (showInt t ++ ['s']) ++
      ([' '] ++ attr "timestamp".toList stamp ++ ['>', '\n'])))
  rw [e]
  unfold junitHead xmlOpen
  generalize "<?xml version=\"1.0\" encoding=\"UTF-8\"?>\n".toList = a1
  generalize "testsuite".toList = a2
  generalize "name".toList = a3
  generalize "tests".toList = a4
  generalize "failures".toList = a5
  generalize "timestamp".toList = a6
  generalize "time".toList = a7
  unfold attr
  simp only [List.flatMap_cons, List.flatMap_nil, List.append_assoc, List.cons_append,
    List.nil_append, List.append_nil]

theorem junitCase_split (secs : RunRecord → Str) (r : RunRecord) :
    ∃ rest, junitCase secs r =
      ['<'] ++ "testcase".toList ++ (" name=\"".toList ++ (r.name ++ '"' :: rest)) := by
  have e : " name=\"".toList = [' '] ++ ("name".toList ++ ['=', '"']) := by decide +kernel
  refine ⟨?rest, ?_⟩
  case rest =>
    exact [' '] ++ attr "time".toList (secs r) ++ (['>', '\n'] ++
        ((if r.retcode ≠ 0 then "<failure message=\"task failed\"/>\n".toList else [])
          ++ xmlClose "testcase".toList))
  rw [e]
  unfold junitCase xmlOpen
  generalize "<failure message=\"task failed\"/>\n".toList = a1
  generalize "testcase".toList = a2
  generalize "name".toList = a3
  generalize "time".toList = a4
  unfold attr
  simp only [List.flatMap_cons, List.flatMap_nil, List.append_assoc, List.cons_append,
    List.nil_append, List.append_nil]

/-- **C43**, exactly.  If there is at least one record, a reader gets the name of the suite and the
names of the tasks, in order, from the report if and only if none of them has a quote, `<`, `&` or
a control character (line breaks and tabs among them) in it. -/
theorem C43_exact (clock : Nat → Int) (secs : RunRecord → Str) (stamp tsName : Str) (er : ExecRecord)
    (hne : er.runs ≠ []) (hstamp : XmlClean stamp) (hsecs : ∀ r ∈ er.runs, XmlClean (secs r)) :
    ∃ doc, junitXml clock secs stamp tsName er = some doc ∧
      ((∃ x, parseXml doc = some x ∧ x.nameAttr = some tsName ∧
          x.kids.map Xml.nameAttr = er.runs.map (fun r => some r.name)) ↔
        XmlClean tsName ∧ ∀ r ∈ er.runs, XmlClean r.name) := by
  obtain ⟨t, ht, -⟩ := C41_least clock er hne
  refine ⟨junitHead t stamp tsName er ++ er.runs.flatMap (junitCase secs)
    ++ xmlClose "testsuite".toList, by rw [junitXml, ht]; rfl, ?_, ?_⟩
  · rintro ⟨x, hx, hn, hk⟩
    rw [parseXml_eq] at hx
    have hts : XmlClean tsName := by
      obtain ⟨rest, hh⟩ := junitHead_split t stamp tsName er
      have e0 : xrun XSt.init "<?xml version=\"1.0\" encoding=\"UTF-8\"?>\n".toList =
          some ⟨[], [], .text⟩ := by with_unfolding_all rfl
      rw [hh, List.append_assoc, List.append_assoc, xrun_then _ e0] at hx
      simp only [List.append_assoc, List.cons_append] at hx
      have e1 := xrun_to_name [] [] "testsuite".toList (by decide +kernel)
        (tsName ++ '"' :: (rest ++ (er.runs.flatMap (junitCase secs) ++ xmlClose "testsuite".toList)))
      simp only [List.append_assoc, List.cons_append] at e1
      rw [e1] at hx
      obtain ⟨v, rest', h1, h2⟩ := xrun_first_name _ _ _ _ _ _ hx
      rw [h1] at hx
      have hr := xdone_some hx
      have hR := xrun_inv (P := RootIs "testsuite".toList ("name".toList, v))
        (fun s c s' h hc => rootIs_step h hc) _ _ _ (.tag [] rfl rfl rfl) hr
      cases hR with
      | tag as _ h => cases h
      | opened F as ch h1 h2 => cases F <;> cases h1
      | closed as ch more h3 =>
        injection h3 with h3 _
        rw [h3, nameAttr_first] at hn
        injection hn with hn
        rw [← hn]
        exact hn ▸ h2 hn
    refine ⟨hts, ?_⟩
    suffices ∀ rs1 rs2, er.runs = rs1 ++ rs2 → ∀ r ∈ rs1, XmlClean r.name from
      this er.runs [] (by simp)
    intro rs1
    induction rs1 using List.reverseRecOn with
    | nil => intro rs2 _ r hr; cases hr
    | append_singleton rs1 r ih =>
      intro rs2 hruns
      rw [List.append_assoc] at hruns
      have ih' := ih _ hruns
      intro q hq
      rcases List.mem_append.1 hq with hq | hq
      · exact ih' q hq
      · rw [List.mem_singleton.1 hq]
        have hcl : ∀ q ∈ rs1, XmlClean q.name ∧ XmlClean (secs q) := fun q hq =>
          ⟨ih' q hq, hsecs q (by rw [hruns]; exact List.mem_append_left _ hq)⟩
        obtain ⟨rest, hc⟩ := junitCase_split secs r
        rw [List.append_assoc, xrun_then _ (xrun_head t stamp tsName er hstamp hts), hruns,
          List.flatMap_append, List.append_assoc, xrun_then _ (xrun_cases secs rs1 hcl _ _ _ _ _),
          show [r] ++ rs2 = r :: rs2 from rfl, List.flatMap_cons, hc] at hx
        simp only [List.append_assoc, List.cons_append] at hx
        generalize rs2.flatMap (junitCase secs) ++ xmlClose "testsuite".toList = tl at hx
        have e1 := fun st => xrun_to_name st [] "testcase".toList (by decide +kernel)
          (r.name ++ '"' :: (rest ++ tl))
        simp only [List.append_assoc, List.cons_append] at e1
        rw [e1] at hx
        obtain ⟨v, rest', h1, h2⟩ := xrun_first_name _ _ _ _ _ _ hx
        rw [h1] at hx
        have hr := xdone_some hx
        have hR := xrun_inv (P := KidIs _ _ _ "testcase".toList ("name".toList, v))
          (fun s c s' h hc => kidIs_step h hc) _ _ _ (.tag [] rfl rfl rfl) hr
        cases hR with
        | tag as h => cases h
        | opened F as ch h1 h2 => cases F <;> cases h1
        | added F as k more h1 h2 => cases F <;> cases h1
        | closed as k more roots h3 =>
          injection h3 with h3 _
          rw [h3, hruns] at hk
          have hk' : (rs1.map (caseTree secs) ++
              Xml.elem "testcase".toList (("name".toList, v) :: as) k :: more).map Xml.nameAttr =
              (rs1 ++ r :: rs2).map (fun r => some r.name) := hk
          rw [List.map_append, List.map_append, List.map_cons, List.map_cons] at hk'
          have := (List.append_inj hk' (by simp)).2
          injection this with h4 _
          rw [nameAttr_first] at h4
          injection h4 with h4
          exact h2 h4
  · rintro ⟨hts, hr⟩
    obtain ⟨t', doc, h0, h1, h2⟩ := C42_partial clock secs stamp tsName er hne hstamp hts
      (fun r hr' => ⟨hr r hr', hsecs r hr'⟩)
    rw [ht] at h0
    injection h0 with h0
    subst h0
    have hdoc : some doc = some (junitHead t stamp tsName er ++ er.runs.flatMap (junitCase secs)
        ++ xmlClose "testsuite".toList) := by rw [← h1, junitXml, ht]; rfl
    injection hdoc with hdoc
    rw [← hdoc]
    refine ⟨_, h2, nameAttr_first .., ?_⟩
    show (er.runs.map (caseTree secs)).map Xml.nameAttr = _
    rw [List.map_map]
    refine List.map_congr_left fun r _ => ?_
    exact nameAttr_first ..

/-- a report that is well formed although it has a wrong name in it -/
example : ∃ doc x, junitXml (fun i => i) (fun _ => ['0']) ['n'] ['s'] (oneRun "a\nb".toList) = some doc ∧
    parseXml doc = some x ∧ x.kids.map Xml.nameAttr = [some "a b".toList] :=
  ⟨_, _, rfl, by with_unfolding_all rfl, by with_unfolding_all rfl⟩

end Joque
