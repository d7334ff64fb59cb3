import Verif.Props.Build
import Verif.Props.Crash
import Verif.Spec.Edit

/-! # C84: files edited during an execution -/

namespace Joque

section
variable {C : Cfg} {proc : Node → Process} {clock : Nat → Int} {fs : Nat → FS} {ms : List Move}

open Classical in
/-- what the files would be without the edits -/
noncomputable def unedited (g : Dag) (proc : Node → Process) (fs : Nat → FS) : Nat → FS :=
  fun i q => if IsSource g proc q then fs 0 q else fs i q

theorem EditRun.unedited (hwf : C.dag.WF)
    (W : EditRun C.dag C.outcome proc (exec C ms).trace clock fs) :
    BuildRun C.dag C.outcome proc (exec C ms).trace clock (unedited C.dag proc fs) := by
  have h0 : ∀ q, Joque.unedited C.dag proc fs 0 q = fs 0 q := by
    intro q; unfold Joque.unedited; split <;> rfl
  refine ⟨W.strict, fun q f h => W.old q f (by rw [← h0]; exact h), ?_, ?_, ?_⟩
  · intro n hn q hq hs
    rw [h0]; exact W.sources n hn q hq hs 0 (Nat.zero_le _)
  · intro i hi q hne
    unfold Joque.unedited at hne ⊢
    split at hne
    · exact absurd rfl hne
    · rename_i hns
      rw [if_neg hns]
      obtain ⟨h1, h2⟩ := W.change i hi q hne
      exact ⟨h1.resolve_left hns, h2⟩
  · intro i n hi
    obtain ⟨os, before, h1, h2, h3⟩ := W.runs i n hi
    refine ⟨os, before, h1, fun q hq => ?_, h3⟩
    have hn : n ∈ C.dag.nodes := by
      have hb : JobBegan (exec C ms).trace n :=
        ended_began hwf (List.prefix_refl _) (List.mem_of_getElem? hi)
      exact (crash_node hwf (List.prefix_refl _) hb).1
    rw [← h2 q hq]
    unfold Joque.unedited
    rw [if_neg fun hs => hs n hn hq]

/-- a source has the time of its last edit -/
theorem EditRun.edited_time (W : EditRun C.dag C.outcome proc (exec C ms).trace clock fs) {q : Str}
    (hq : IsSource C.dag proc q) {f : PFile} {j : Nat} (hj : j ≤ (exec C ms).trace.length)
    (hf : fs j q = some f) :
    (fs j q = fs 0 q ∧ f.time < clock 0) ∨
      ∃ e < j, EditedAt C.dag proc (exec C ms).trace fs q e ∧ f.time = clock e := by
  induction j with
  | zero => exact .inl ⟨rfl, W.old q f hf⟩
  | succ j ih =>
    by_cases hc : fs (j + 1) q = fs j q
    · rcases ih (by omega) (hc ▸ hf) with ⟨h1, h2⟩ | ⟨e, h1, h2, h3⟩
      · exact .inl ⟨hc.trans h1, h2⟩
      · exact .inr ⟨e, by omega, h2, h3⟩
    · exact .inr ⟨j, by omega, ⟨hq, by omega, hc⟩, (W.change j (by omega) q hc).2 f hf⟩

/-- after an edit a source is at least that new -/
theorem EditRun.after_edit (W : EditRun C.dag C.outcome proc (exec C ms).trace clock fs) {q : Str}
    {e : Nat} (he : EditedAt C.dag proc (exec C ms).trace fs q e) {j : Nat} (hej : e < j)
    (hj : j ≤ (exec C ms).trace.length) {f : PFile} (hf : fs j q = some f) : clock e ≤ f.time := by
  induction j with
  | zero => omega
  | succ j ih =>
    by_cases hc : fs (j + 1) q = fs j q
    · by_cases h : e = j
      · subst h; exact absurd hc he.2.2
      · exact ih (by omega) (by omega) (hc ▸ hf)
    · rw [(W.change j (by omega) q hc).2 f hf]
      by_cases h : e = j
      · rw [h]; exact Int.le_refl _
      · exact Int.le_of_lt (W.strict _ _ (by omega))

/-- the outputs after an execution in which nothing failed -/
theorem BuildRun.outputs (hwf : C.dag.WF) (hp : Plan C.dag proc) {tf : TimeFmt}
    (W : BuildRun C.dag C.outcome proc (exec C ms).trace clock fs) (hask : AsksAt C proc tf (fs 0))
    (hpres : ∀ n ∈ C.dag.nodes, ((proc n).isInvalidated tf (fs 0)).invalidated = false →
      ∀ o ∈ (proc n).output, (fs 0 o).isSome)
    (hfin : (exec C ms).phase = .finished)
    (hgood : ∀ r ∈ recsOf (exec C ms).trace, r.status = .ok ∨ r.status = .skip) {n : Node}
    (hn : n ∈ C.dag.nodes) {o : Str} (ho : o ∈ (proc n).output) :
    ∃ f, fs (exec C ms).trace.length o = some f ∧
      ((¬ JobBegan (exec C ms).trace n ∧ f.time < clock 0) ∨
        (JobBegan (exec C ms).trace n ∧
          (∀ j b, (exec C ms).trace[j]? = some (.jobBegin n b) → clock j < f.time) ∧
          ∀ e, (exec C ms).trace[e]? = some (.jobEnd n) → f.time ≤ clock e)) := by
  obtain ⟨hI, hT⟩ := both_exec hwf ms
  obtain ⟨hperm, _, _⟩ := C02_one_record C hwf ms hfin
  obtain ⟨r, hr, rfl⟩ : ∃ r ∈ recsOf (exec C ms).trace, r.node = n := by
    rw [hT.recs]
    exact List.mem_map.1 (hperm.mem_iff.2 hn)
  have hw : o ∈ (proc r.node).writes := List.mem_append_left _ ho
  rcases hgood r hr with hst | hst
  · have hbe := began_of_status hT (by rw [← hT.recs]; exact hr)
    have hb : JobBegan (exec C ms).trace r.node := hbe.1.2 (.inl hst)
    obtain ⟨e, he⟩ := List.mem_iff_getElem?.1 (hbe.2 hb)
    obtain ⟨m1, m2, m3⟩ := W.made hwf hp hr hst hn he
    obtain ⟨f, hf, hlt⟩ := m2 o ho
    refine ⟨f, by rw [m1 o hw]; exact hf, .inr ⟨hb, hlt, fun e' he' => ?_⟩⟩
    obtain ⟨k1, _, _⟩ := W.made hwf hp hr hst hn he'
    have hel : e' < (exec C ms).trace.length := (List.getElem?_eq_some_iff.1 he').1
    have hf' : fs (e' + 1) o = some f := by rw [← k1 o hw, m1 o hw]; exact hf
    by_cases hc : fs (e' + 1) o = fs e' o
    · exact Int.le_of_lt (W.past (by omega) (hc ▸ hf'))
    · rw [(W.change e' hel o hc).2 f hf']; exact Int.le_refl _
  · have h6 := C06_status_meaning C hwf ms r hr
    rw [hst] at h6
    have hv : ((proc r.node).isInvalidated tf (fs 0)).invalidated = false := by
      by_contra hne
      refine h6.2.2.2.1 ⟨r.node, .refl, ((proc r.node).isInvalidated tf (fs 0)).log, ?_⟩
      rw [hask _ hn]
      have : ((proc r.node).isInvalidated tf (fs 0)).invalidated = true := by simpa using hne
      rw [← this]
    obtain ⟨f, hf⟩ := Option.isSome_iff_exists.1 (hpres _ hn hv o ho)
    exact ⟨f, by rw [W.untouched hwf hp hn h6.1 hw]; exact hf, .inl ⟨h6.1, W.old o f hf⟩⟩

/-- all files are there after an execution in which nothing failed -/
theorem BuildRun.present (hwf : C.dag.WF) (hp : Plan C.dag proc) {tf : TimeFmt}
    (W : BuildRun C.dag C.outcome proc (exec C ms).trace clock fs) (hask : AsksAt C proc tf (fs 0))
    (hpres : ∀ n ∈ C.dag.nodes, ((proc n).isInvalidated tf (fs 0)).invalidated = false →
      ∀ o ∈ (proc n).output, (fs 0 o).isSome)
    (hfin : (exec C ms).phase = .finished)
    (hgood : ∀ r ∈ recsOf (exec C ms).trace, r.status = .ok ∨ r.status = .skip) (n : Node)
    (hn : n ∈ C.dag.nodes) :
    (∀ i ∈ (proc n).input, (fs (exec C ms).trace.length i).isSome) ∧
    ∀ o ∈ (proc n).output, (fs (exec C ms).trace.length o).isSome := by
  have hout : ∀ n ∈ C.dag.nodes, ∀ o ∈ (proc n).output, (fs (exec C ms).trace.length o).isSome := by
    intro n hn o ho
    obtain ⟨f, hf, _⟩ := W.outputs hwf hp hask hpres hfin hgood hn ho
    rw [hf]; rfl
  refine ⟨fun i hi => ?_, hout n hn⟩
  rcases hp.inputs _ hn i hi with hs | ⟨m, hm, hmo, _, _⟩
  · rw [W.source hwf hs (Nat.le_refl _)]; exact W.sources n hn i hi hs
  · exact hout m hm i hmo

end

/-- **C84**, exactly which processes are out of date after an execution in which nothing failed, with
files edited meanwhile: those with an input that was edited not before some output was written. -/
theorem C84_exact (C : Cfg) (hwf : C.dag.WF) (proc : Node → Process) (tf : TimeFmt)
    (clock : Nat → Int) (fs : Nat → FS) (ms : List Move) (hp : Plan C.dag proc)
    (W : EditRun C.dag C.outcome proc (exec C ms).trace clock fs) (hask : AsksAt C proc tf (fs 0))
    (hpres : ∀ n ∈ C.dag.nodes, ((proc n).isInvalidated tf (fs 0)).invalidated = false →
      ∀ o ∈ (proc n).output, (fs 0 o).isSome)
    (hfin : (exec C ms).phase = .finished)
    (hgood : ∀ r ∈ recsOf (exec C ms).trace, r.status = .ok ∨ r.status = .skip) :
    ∀ n ∈ C.dag.nodes,
      ((proc n).isInvalidated tf (fs (exec C ms).trace.length)).invalidated = true ↔
        ∃ q ∈ (proc n).input, ∃ e, EditedAt C.dag proc (exec C ms).trace fs q e ∧
          ∃ o ∈ (proc n).output, ∃ f, fs (exec C ms).trace.length o = some f ∧ f.time ≤ clock e := by
  classical
  have WB := W.unedited hwf
  have h0 : unedited C.dag proc fs 0 = fs 0 := by
    funext q; unfold unedited; split <;> rfl
  have hup := C60_up_to_date C hwf proc tf clock (unedited C.dag proc fs) ms hp WB (by rw [h0]; exact hask)
    (by rw [h0]; exact hpres) hfin hgood
  have hpr := WB.present hwf hp (tf := tf) (by rw [h0]; exact hask) (by rw [h0]; exact hpres) hfin hgood
  generalize hL : (exec C ms).trace.length = L at *
  intro n hn
  have hw : ∀ q ∈ (proc n).writes, unedited C.dag proc fs L q = fs L q := by
    intro q hq; unfold unedited; rw [if_neg fun hs => hs n hn hq]
  have hsame : ∀ q, ¬ IsSource C.dag proc q → unedited C.dag proc fs L q = fs L q := by
    intro q hq; unfold unedited; rw [if_neg hq]
  have hret : RetcodeOk (fs L) (proc n) := by
    intro f hf
    obtain ⟨file, h1, h2⟩ := retcodeOk_of_valid (hup n hn) f hf
    exact ⟨file, by rw [← hw f (by simp [Process.writes, hf])]; exact h1, h2⟩
  have hret' : RetcodeOk (unedited C.dag proc fs L) (proc n) := retcodeOk_of_valid (hup n hn)
  have hold := (C34_stale tf _ (proc n) hret' (hp.hasInput _ hn) (hp.hasOutput _ hn)
    (hpr n hn).1 (hpr n hn).2).not.1 (by rw [hup n hn]; simp)
  have hout : ∀ o ∈ (proc n).output, unedited C.dag proc fs L o = fs L o := fun o ho =>
    hw o (List.mem_append_left _ ho)
  have hin' : ∀ i ∈ (proc n).input, (fs L i).isSome := by
    intro i hi
    by_cases hs : IsSource C.dag proc i
    · exact W.sources n hn i hi hs L (Nat.le_of_eq hL.symm)
    · rw [← hsame i hs]; exact (hpr n hn).1 i hi
  rw [C34_stale tf (fs L) (proc n) hret (hp.hasInput _ hn) (hp.hasOutput _ hn) hin'
    (fun o ho => by rw [← hout o ho]; exact (hpr n hn).2 o ho)]
  constructor
  · rintro ⟨o, ho, i, hi, fo, fi, e1, e2, hle⟩
    by_cases hs : IsSource C.dag proc i
    · rcases W.edited_time hs (Nat.le_of_eq hL.symm) e2 with ⟨h1, h2⟩ | ⟨e, h1, h2, h3⟩
      · exfalso
        refine hold ⟨o, ho, i, hi, fo, fi, by rw [hout o ho]; exact e1, ?_, hle⟩
        show unedited C.dag proc fs L i = some fi
        unfold unedited
        rw [if_pos hs, ← h1]; exact e2
      · exact ⟨i, hi, e, h2, o, ho, fo, e1, by rw [← h3]; exact hle⟩
    · exact absurd ⟨o, ho, i, hi, fo, fi, by rw [hout o ho]; exact e1, by rw [hsame i hs]; exact e2, hle⟩ hold
  · rintro ⟨q, hq, e, he, o, ho, f, hf, hle⟩
    obtain ⟨fq, hfq⟩ := Option.isSome_iff_exists.1 (hin' q hq)
    refine ⟨o, ho, q, hq, f, fq, hf, hfq, Int.le_trans hle ?_⟩
    exact W.after_edit he (by have := he.2.1; omega) (Nat.le_of_eq hL.symm) hfq

/-- **C84**, what the moment of an edit means, after an execution in which nothing failed: if the job
has begun later, all outputs are newer; if it was not executing and has not begun later, none is.
(While it was executing, it depends on when it wrote its outputs.) -/
theorem C84_moment (C : Cfg) (hwf : C.dag.WF) (proc : Node → Process) (tf : TimeFmt)
    (clock : Nat → Int) (fs : Nat → FS) (ms : List Move) (hp : Plan C.dag proc)
    (W : EditRun C.dag C.outcome proc (exec C ms).trace clock fs) (hask : AsksAt C proc tf (fs 0))
    (hpres : ∀ n ∈ C.dag.nodes, ((proc n).isInvalidated tf (fs 0)).invalidated = false →
      ∀ o ∈ (proc n).output, (fs 0 o).isSome)
    (hfin : (exec C ms).phase = .finished)
    (hgood : ∀ r ∈ recsOf (exec C ms).trace, r.status = .ok ∨ r.status = .skip)
    (n : Node) (hn : n ∈ C.dag.nodes) (e : Nat) (o : Str) (ho : o ∈ (proc n).output) :
    ∃ f, fs (exec C ms).trace.length o = some f ∧
      ((∃ j b, e ≤ j ∧ (exec C ms).trace[j]? = some (.jobBegin n b)) → clock e < f.time) ∧
      ((∀ j b, e ≤ j → (exec C ms).trace[j]? ≠ some (.jobBegin n b)) →
        ¬ Running ((exec C ms).trace.take e) n → f.time ≤ clock e) := by
  classical
  have WB := W.unedited hwf
  have h0 : unedited C.dag proc fs 0 = fs 0 := by
    funext q; unfold unedited; split <;> rfl
  obtain ⟨f, hf, h⟩ := WB.outputs hwf hp (tf := tf) (by rw [h0]; exact hask) (by rw [h0]; exact hpres) hfin
    hgood hn ho
  have hns : ¬ IsSource C.dag proc o := fun hs => hs n hn (List.mem_append_left _ ho)
  unfold unedited at hf
  rw [if_neg hns] at hf
  refine ⟨f, hf, ?_, ?_⟩
  · rintro ⟨j, b, hej, hj⟩
    rcases h with ⟨h, _⟩ | ⟨_, h, _⟩
    · exact absurd ⟨b, List.mem_of_getElem? hj⟩ h
    · exact Int.lt_of_le_of_lt (WB.mono hej) (h j b hj)
  · intro hno hnr
    rcases h with ⟨_, h⟩ | ⟨⟨b, hb⟩, _, h⟩
    · exact Int.le_of_lt (Int.lt_of_lt_of_le h (WB.mono (Nat.zero_le _)))
    · obtain ⟨j, hj⟩ := List.mem_iff_getElem?.1 hb
      have hje : j < e := by
        by_contra hc; exact hno j b (by omega) hj
      have hend : JobEnded ((exec C ms).trace.take e) n := by
        by_contra hc
        exact hnr ⟨⟨b, mem_take_of_getElem? hj hje⟩, hc⟩
      obtain ⟨k, hk⟩ := List.mem_iff_getElem?.1 hend
      have hke : k < e := by
        have := (List.getElem?_eq_some_iff.1 hk).1
        rw [List.length_take] at this; omega
      rw [List.getElem?_take_of_lt hke] at hk
      exact Int.le_trans (h k hk) (WB.mono (by omega))

/-- **C84**, what the next execution runs: exactly the tasks that are, transitively, invalidated by one
with an input that was edited not before some output was written (leaving out those with a failed
dependency). -/
theorem C84_next (C C2 : Cfg) (hwf : C.dag.WF) (proc : Node → Process) (tf : TimeFmt)
    (clock : Nat → Int) (fs : Nat → FS) (ms ms2 : List Move) (hp : Plan C.dag proc)
    (W : EditRun C.dag C.outcome proc (exec C ms).trace clock fs) (hask : AsksAt C proc tf (fs 0))
    (hpres : ∀ n ∈ C.dag.nodes, ((proc n).isInvalidated tf (fs 0)).invalidated = false →
      ∀ o ∈ (proc n).output, (fs 0 o).isSome)
    (hfin : (exec C ms).phase = .finished)
    (hgood : ∀ r ∈ recsOf (exec C ms).trace, r.status = .ok ∨ r.status = .skip)
    (hdag : C2.dag = C.dag) (hask2 : AsksAt C2 proc tf (fs (exec C ms).trace.length))
    (r : RunRecord) (hr : r ∈ recsOf (exec C2 ms2).trace) (hst : r.status ≠ .depf) :
    JobBegan (exec C2 ms2).trace r.node ↔
      ∃ m, Relation.ReflTransGen (HasEdge C.dag .invalidatedBy) r.node m ∧
        ∃ q ∈ (proc m).input, ∃ e, EditedAt C.dag proc (exec C ms).trace fs q e ∧
          ∃ o ∈ (proc m).output, ∃ f, fs (exec C ms).trace.length o = some f ∧ f.time ≤ clock e := by
  have hwf2 : C2.dag.WF := hdag ▸ hwf
  have hrn : r.node ∈ C.dag.nodes := by
    rw [← hdag]; exact (C02_no_double_record C2 hwf2 ms2).2 r hr
  rw [C08_executed_iff_stale C2 hwf2 ms2 r hr hst]
  have hx := C84_exact C hwf proc tf clock fs ms hp W hask hpres hfin hgood
  constructor
  · rintro ⟨m, hm, log, hlog⟩
    rw [hdag] at hm
    have hmn := reach_node hwf hm hrn
    refine ⟨m, hm, (hx m hmn).1 ?_⟩
    rw [hask2 m (by rw [hdag]; exact hmn)] at hlog
    have := InvalOut.answer.inj hlog
    rw [this]
  · rintro ⟨m, hm, h⟩
    have hmn := reach_node hwf hm hrn
    refine ⟨m, by rw [hdag]; exact hm, ((proc m).isInvalidated tf (fs (exec C ms).trace.length)).log, ?_⟩
    rw [hask2 m (by rw [hdag]; exact hmn)]
    have := (hx m hmn).2 h
    rw [← this]

/-- **C84**.  An edit of an input made while the job of the task was not executing is not lost: either
the job has begun later, or the next execution runs the task (unless a dependency of it fails).

Missing: an edit made while the job was executing is lost if the job writes its outputs later
(`C84_counterexample`, `C84_exact`). -/
theorem C84_partial (C C2 : Cfg) (hwf : C.dag.WF) (proc : Node → Process) (tf : TimeFmt)
    (clock : Nat → Int) (fs : Nat → FS) (ms ms2 : List Move) (hp : Plan C.dag proc)
    (W : EditRun C.dag C.outcome proc (exec C ms).trace clock fs) (hask : AsksAt C proc tf (fs 0))
    (hpres : ∀ n ∈ C.dag.nodes, ((proc n).isInvalidated tf (fs 0)).invalidated = false →
      ∀ o ∈ (proc n).output, (fs 0 o).isSome)
    (hfin : (exec C ms).phase = .finished)
    (hgood : ∀ r ∈ recsOf (exec C ms).trace, r.status = .ok ∨ r.status = .skip)
    (hdag : C2.dag = C.dag) (hask2 : AsksAt C2 proc tf (fs (exec C ms).trace.length))
    (r : RunRecord) (hr : r ∈ recsOf (exec C2 ms2).trace) (hst : r.status ≠ .depf)
    (q : Str) (hq : q ∈ (proc r.node).input) (e : Nat)
    (he : EditedAt C.dag proc (exec C ms).trace fs q e)
    (hnr : ¬ Running ((exec C ms).trace.take e) r.node) :
    (∃ j b, e ≤ j ∧ (exec C ms).trace[j]? = some (.jobBegin r.node b)) ∨
      JobBegan (exec C2 ms2).trace r.node := by
  by_cases hj : ∃ j b, e ≤ j ∧ (exec C ms).trace[j]? = some (.jobBegin r.node b)
  · exact .inl hj
  right
  have hwf2 : C2.dag.WF := hdag ▸ hwf
  have hrn : r.node ∈ C.dag.nodes := by
    rw [← hdag]; exact (C02_no_double_record C2 hwf2 ms2).2 r hr
  rw [C84_next C C2 hwf proc tf clock fs ms ms2 hp W hask hpres hfin hgood hdag hask2 r hr hst]
  obtain ⟨o, ho⟩ := List.exists_mem_of_ne_nil _ (hp.hasOutput _ hrn)
  obtain ⟨f, hf, _, h⟩ := C84_moment C hwf proc tf clock fs ms hp W hask hpres hfin hgood _ hrn e o ho
  exact ⟨r.node, .refl, q, hq, e, he, o, ho, f, hf,
    h (fun j b h1 h2 => hj ⟨j, b, h1, h2⟩) hnr⟩

/-! ## an edit -/

/-- one edit of a source, on top of a build -/
def editAt (fs : Nat → FS) (q : Str) (e : Nat) (t : Int) : Nat → FS :=
  fun i p => if p = q ∧ e < i then some ⟨t, []⟩ else fs i p

theorem BuildRun.edit {C : Cfg} {proc : Node → Process} {clock : Nat → Int} {fs : Nat → FS}
    {ms : List Move} (hwf : C.dag.WF) (W : BuildRun C.dag C.outcome proc (exec C ms).trace clock fs)
    {q : Str} (hq : IsSource C.dag proc q) {e : Nat} (he : e < (exec C ms).trace.length) :
    EditRun C.dag C.outcome proc (exec C ms).trace clock (editAt fs q e (clock e)) ∧
    EditedAt C.dag proc (exec C ms).trace (editAt fs q e (clock e)) q e := by
  have hw : ∀ n ∈ C.dag.nodes, ∀ p ∈ (proc n).writes, p ≠ q := fun n hn p hp hpq =>
    hq n hn (hpq ▸ hp)
  refine ⟨⟨W.strict, ?_, ?_, ?_, ?_⟩, hq, he, ?_⟩
  · intro p f h
    unfold editAt at h
    rw [if_neg (by omega)] at h
    exact W.old p f h
  · intro n hn p hp hs i hi
    unfold editAt
    split
    · rfl
    · rw [W.source hwf hs hi]; exact W.sources n hn p hp hs
  · intro i hi p hne
    unfold editAt at hne ⊢
    by_cases hp : p = q
    · subst hp
      refine ⟨.inl hq, fun f hf => ?_⟩
      have hs : fs (i + 1) p = fs i p := by
        rw [W.source hwf hq (j := i + 1) (by omega), W.source hwf hq (j := i) (by omega)]
      by_cases h1 : e < i
      · rw [if_pos ⟨rfl, by omega⟩, if_pos ⟨rfl, h1⟩] at hne; exact absurd rfl hne
      · by_cases h2 : e < i + 1
        · rw [if_pos ⟨rfl, h2⟩] at hf; cases hf
          rw [show e = i by omega]
        · rw [if_neg (by omega), if_neg (by omega), hs] at hne; exact absurd rfl hne
    · rw [if_neg fun h => hp h.1, if_neg fun h => hp h.1] at hne
      rw [if_neg fun h => hp h.1]
      obtain ⟨h1, h2⟩ := W.change i hi p hne
      exact ⟨.inr h1, h2⟩
  · intro i n hi
    obtain ⟨os, before, h1, h2, h3⟩ := W.runs i n hi
    refine ⟨os, before, h1, fun p hp => ?_, h3⟩
    have hn : n ∈ C.dag.nodes :=
      (crash_node hwf (List.prefix_refl _)
        (ended_began hwf (List.prefix_refl _) (List.mem_of_getElem? hi))).1
    rw [← h2 p hp]
    unfold editAt
    rw [if_neg fun h => hw n hn p hp h.1]
  · unfold editAt
    rw [if_pos ⟨rfl, by omega⟩, if_neg (by omega), W.source hwf hq (by omega)]
    intro hc
    have h1 := W.old q _ hc.symm
    have h2 := W.mono (Nat.zero_le e)
    simp only at h1
    omega

namespace Ex

/-- two processes on one thread -/
def ecfg (fs : FS) : Cfg := { bcfg true fs with threadCount := 1 }

def emoves : List Move :=
  List.replicate 12 .ctl ++ [.begin 1] ++ List.replicate 8 .ctl ++ [.finish 1] ++
  List.replicate 12 .ctl ++ [.begin 2] ++ List.replicate 8 .ctl ++ [.finish 2] ++
  List.replicate 5 .ctl

/-- the first execution: a build from sources only -/
def efirst : St := exec (ecfg bfs0) emoves

/-- the files, if `a` is edited at event `e` -/
def efs (e : Nat) : Nat → FS := editAt (canonFs bproc bfs0 efirst.trace) ['a'] e e

/-- the next execution -/
def enext (e : Nat) (ms : List Move) : St := exec (ecfg (efs e efirst.trace.length)) ms

theorem eworld : BuildRun (ecfg bfs0).dag (ecfg bfs0).outcome bproc efirst.trace (fun i => i)
    (canonFs bproc bfs0 efirst.trace) := by
  have hok : canonOk efirst.trace = true := by decide +kernel
  refine canon_world (fun _ => rfl) ?_ bold0 ?_ (fun i n h => (canonOk_spec hok h).1)
    (fun i n h => (canonOk_spec hok h).2)
  · intro n f hf
    unfold bproc at hf ⊢
    split at hf
    · cases hf
    · rename_i h
      cases hf
      rw [if_neg h]
      show ['r'] ∉ [['c']]
      decide
  · exact (bworld true bfs0 bold0 (by decide +kernel) (by decide +kernel)).sources

theorem esource : IsSource (ecfg bfs0).dag bproc ['a'] := by
  show ∀ m ∈ [2, 1], ['a'] ∉ (bproc m).writes
  decide +kernel

theorem elength : efirst.trace.length = 32 := by decide +kernel

theorem eedit (e : Nat) (he : e < 32) :
    EditRun (ecfg bfs0).dag (ecfg bfs0).outcome bproc efirst.trace (fun i => i) (efs e) ∧
    EditedAt (ecfg bfs0).dag bproc efirst.trace (efs e) ['a'] e :=
  BuildRun.edit (C := ecfg bfs0) (ms := emoves) (bwf true bfs0) eworld esource
    (by rw [← elength] at he; exact he)

end Ex

/-- **C84** is false of the code: the input `a` of task 1 is edited while its job executes, and the job
writes `b` later (so from the old `a`, possibly).  Everything is fine in the first execution, and the
next one skips both tasks. -/
theorem C84_counterexample :
    Plan (Ex.ecfg Ex.bfs0).dag Ex.bproc ∧
    EditRun (Ex.ecfg Ex.bfs0).dag (Ex.ecfg Ex.bfs0).outcome Ex.bproc Ex.efirst.trace (fun i => i)
      (Ex.efs 13) ∧
    AsksAt (Ex.ecfg Ex.bfs0) Ex.bproc (fun _ => []) (Ex.efs 13 0) ∧
    Ex.efirst.phase = .finished ∧
    (recsOf Ex.efirst.trace).map (fun r => (r.node, r.status)) = [(1, .ok), (2, .ok)] ∧
    ['a'] ∈ (Ex.bproc 1).input ∧
    EditedAt (Ex.ecfg Ex.bfs0).dag Ex.bproc Ex.efirst.trace (Ex.efs 13) ['a'] 13 ∧
    Running (Ex.efirst.trace.take 13) 1 ∧
    AsksAt (Ex.ecfg (Ex.efs 13 Ex.efirst.trace.length)) Ex.bproc (fun _ => [])
      (Ex.efs 13 Ex.efirst.trace.length) ∧
    (Ex.enext 13 (List.replicate 16 .ctl)).phase = .finished ∧
    (recsOf (Ex.enext 13 (List.replicate 16 .ctl)).trace).map (fun r => (r.node, r.status)) =
      [(1, .skip), (2, .skip)] := by
  have h := Ex.eedit 13 (by decide)
  refine ⟨Ex.bplan Ex.bfs0, h.1, fun _ _ => ?_, by decide +kernel, by decide +kernel, by decide +kernel, h.2,
    ⟨⟨false, by decide +kernel⟩, by unfold JobEnded; decide +kernel⟩, fun _ _ => rfl, by decide +kernel, by decide +kernel⟩
  show InvalOut.answer _ = InvalOut.answer _
  congr 2
  funext q
  unfold Ex.efs editAt
  rw [if_neg (by omega)]
  rfl

/-- the same edit after the job has ended: the hypotheses of `C84_partial` hold, and the next execution
runs both tasks -/
example :
    Plan (Ex.ecfg Ex.bfs0).dag Ex.bproc ∧
    EditRun (Ex.ecfg Ex.bfs0).dag (Ex.ecfg Ex.bfs0).outcome Ex.bproc Ex.efirst.trace (fun i => i)
      (Ex.efs 20) ∧
    EditedAt (Ex.ecfg Ex.bfs0).dag Ex.bproc Ex.efirst.trace (Ex.efs 20) ['a'] 20 ∧
    ¬ Running (Ex.efirst.trace.take 20) 1 ∧
    (∀ n ∈ [2, 1], ((Ex.bproc n).isInvalidated (fun _ => []) (Ex.efs 20 0)).invalidated = false →
      ∀ o ∈ (Ex.bproc n).output, (Ex.efs 20 0 o).isSome) ∧
    (Ex.enext 20 Ex.emoves).phase = .finished ∧
    (recsOf (Ex.enext 20 Ex.emoves).trace).map (fun r => (r.node, r.status)) =
      [(1, .ok), (2, .ok)] := by
  have h := Ex.eedit 20 (by decide)
  exact ⟨Ex.bplan Ex.bfs0, h.1, h.2, fun hr => hr.2 (by unfold JobEnded; decide +kernel), by decide +kernel,
    by decide +kernel, by decide +kernel⟩

/-- the same edit before the job begins: it is seen by the job, and the next execution skips both tasks -/
example :
    EditedAt (Ex.ecfg Ex.bfs0).dag Ex.bproc Ex.efirst.trace (Ex.efs 5) ['a'] 5 ∧
    Ex.efirst.trace[12]? = some (.jobBegin 1 false) ∧
    (recsOf (Ex.enext 5 (List.replicate 16 .ctl)).trace).map (fun r => (r.node, r.status)) =
      [(1, .skip), (2, .skip)] := by
  have h := Ex.eedit 5 (by decide)
  exact ⟨h.2, by decide +kernel, by decide +kernel⟩

end Joque
