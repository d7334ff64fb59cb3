import Verif.Props.Preset
import Verif.Props.Exec4
import Verif.Proof.Preset4

/-! # C77, exactly: which marks make a difference -/

namespace Joque

/-- nobody who watches can tell the two executions apart, whatever the schedule -/
def SameToAll (C : Cfg) (f : Flags) : Prop :=
  ∀ ms, (execFrom C f ms).phase = (exec C ms).phase ∧ (execFrom C f ms).erec = (exec C ms).erec ∧
    (execFrom C f ms).trace = (exec C ms).trace ∧ (execFrom C f ms).worker = (exec C ms).worker

/-- **C77**, the mark `failed`, exactly.  Marks of this kind make no difference if and only if every
task requiring a marked one is never started, and never recorded but as DEPF, even without them. -/
theorem C77_failed_exact (C : Cfg) (hwf : C.dag.WF) (i : Node → Inval) (fl : Node → Bool) :
    SameToAll C { Flags.fresh with inval := i, failed := fl } ↔
    ∀ ms x n, fl n = true → HasEdge C.dag .requires x n →
      (∀ b, .jobBegin x b ∉ (exec C ms).trace) ∧
      ∀ r ∈ (exec C ms).erec.runs, r.node = x → r.status = .depf := by
  constructor
  · intro H ms x n hn hx
    obtain ⟨-, h2, h3, -⟩ := H ms
    rw [← h2, ← h3]
    exact C77_failed C _ n hn ms x hx
  · intro H ms
    have hp := fun ms => C77_partial C hwf i ms
    have := orF_exec (C := C) (B := { Flags.fresh with inval := i }) (f := fl) (by
      intro ms x n hn hx
      rw [(hp ms).2.1, (hp ms).2.2.1]
      exact H ms x n hn hx) ms
    have e : (fun n => Flags.fresh.failed n || fl n) = fl := funext fun n => Bool.false_or _
    have h : execFrom C { Flags.fresh with inval := i, failed := fun n => Flags.fresh.failed n || fl n } ms =
        (execFrom C { Flags.fresh with inval := i } ms).orF fl := this
    rw [e] at h
    rw [h]
    exact hp ms

/-- **C77**, exactly.  For a problem that can be brought to its end at all: the marks make no
difference if and only if none of them is `started` or `done` and every task requiring a node marked
as `failed` is DEPF anyway. -/
theorem C77_exact (C : Cfg) (hwf : C.dag.WF)
    (hra : ∀ a b, HasEdge C.dag .requires a b → AfterEdge C.dag a b) (ms0 : List Move)
    (hfin : (exec C ms0).phase = .finished) (f : Flags)
    (hout : ∀ n, n ∉ C.dag.nodes → f.started n = false ∧ f.done n = false) :
    SameToAll C f ↔ (∀ n, f.started n = false ∧ f.done n = false) ∧
      ∀ n, f.failed n = true → ∀ r ∈ (exec C ms0).erec.runs, HasEdge C.dag .requires r.node n →
        r.status = .depf := by
  constructor
  · intro H
    refine ⟨fun n => ?_, fun n hn r hr hx => ?_⟩
    · by_cases hm : n ∈ C.dag.nodes
      · by_contra hc
        have hst : f.started n = true ∨ f.done n = true := by
          cases h1 : f.started n <;> cases h2 : f.done n <;> simp_all
        exact C77_stuck C hwf f n hm hst ms0 ((H ms0).1.trans hfin)
      · exact hout n hm
    · rw [← (H ms0).2.1] at hr
      exact (C77_failed C f n hn ms0 r.node hx).2 r hr rfl
  · rintro ⟨H1, H2⟩
    have e : f = { Flags.fresh with inval := f.inval, failed := f.failed } := by
      obtain ⟨a, b, c, d⟩ := f
      have hb : b = fun _ => false := funext fun n => (H1 n).1
      have hc : c = fun _ => false := funext fun n => (H1 n).2
      rw [hb, hc]; rfl
    rw [e]
    refine (C77_failed_exact C hwf f.inval f.failed).2 ?_
    intro ms x n hn hx
    obtain ⟨hperm, -, -⟩ := C02_one_record C hwf ms0 hfin
    obtain ⟨r0, hr0, rfl⟩ := List.mem_map.1 (hperm.mem_iff.2 (hwf.closed _ hx).1)
    have hd := H2 n hn r0 hr0 hx
    have ht0 := tinv_exec hwf ms0
    have ht := tinv_exec hwf ms
    have hsame : SameProblem C C id := ⟨fun _ _ _ h => h, fun _ _ c _ h => ⟨c, h, rfl⟩,
      fun _ _ => rfl, fun _ _ => rfl⟩
    have hst : ∀ r ∈ recsOf (exec C ms).trace, ∀ q ∈ recsOf (exec C ms0).trace, r.node = q.node →
        r.status = q.status := fun r hr q hq he =>
      ((C07_schedule_independence C C id hwf hwf hsame hra hra ms0 ms q r hq hr he).1).symm
    refine ⟨fun b hb => ?_, fun r hr he => ?_⟩
    · rw [← ht0.recs] at hr0
      obtain ⟨q, hq, hreq, hbad⟩ := C05_only_if C hwf ms0 r0 hr0 hd
      obtain ⟨pre, post, htr⟩ := List.append_of_mem hb
      obtain ⟨hrec, -, -⟩ := C01_ordering C hwf ms pre post _ _ b htr (hra _ _ hreq)
      obtain ⟨r, hr, hrn⟩ := hrec
      obtain ⟨er, m, hr⟩ := mem_recsOf.1 hr
      have hr' : r ∈ recsOf (exec C ms).trace := mem_recsOf.2 ⟨er, m, by rw [htr]; simp [hr]⟩
      have hb' : Bad r := by
        unfold Bad at hbad ⊢
        rw [hst r hr' q hq hrn]; exact hbad
      exact (C05_failed_dependency C hwf ms _ _ hreq (hra _ _ hreq) r hr' hrn hb').1 ⟨b, hb⟩
    · rw [← ht.recs] at hr
      rw [← ht0.recs] at hr0
      rw [hst r hr r0 hr0 he]; exact hd

/-- task 1 fails, task 2 requires it -/
def Ex.preBad (tc : Nat) : Cfg := { Ex.pre tc with outcome := fun n => Ex.ret (if n = 1 then 3 else 0) [] }

/-- the hypotheses: a problem that ends, and a mark that makes no difference because task 1 fails
anyway; in `C77_counterexample` the same mark does -/
example : SameToAll (Ex.preBad 0) (Ex.mark1 false false true) ∧
    ¬ SameToAll (Ex.pre 0) (Ex.mark1 false false true) := by
  have hra : ∀ a b, HasEdge (Ex.pre 0).dag .requires a b → AfterEdge (Ex.pre 0).dag a b := by
    intro a b h
    have : (⟨a, b, .requires⟩ : Edge) ∈ [(⟨2, 1, .requires⟩ : Edge), ⟨2, 1, .after⟩] := h
    simp at this
    obtain ⟨rfl, rfl⟩ := this
    show (⟨2, 1, .after⟩ : Edge) ∈ [(⟨2, 1, .requires⟩ : Edge), ⟨2, 1, .after⟩]
    decide
  constructor
  · refine (C77_exact (Ex.preBad 0) (Ex.pre_wf 0) hra (List.replicate 16 .ctl) (by decide +kernel) _
      (fun n _ => ⟨rfl, rfl⟩)).2 ⟨fun n => ⟨rfl, rfl⟩, fun n hn r hr hx => ?_⟩
    have hx' : (⟨r.node, n, .requires⟩ : Edge) ∈ [(⟨2, 1, .requires⟩ : Edge), ⟨2, 1, .after⟩] := hx
    simp at hx'
    have : ∀ r ∈ (exec (Ex.preBad 0) (List.replicate 16 .ctl)).erec.runs, r.node = 2 → r.status = .depf := by
      decide +kernel
    exact this r hr hx'.1
  · intro H
    have := (H (List.replicate 16 .ctl)).2.1
    have h2 := congrArg (fun e : ExecRecord => e.runs.map RunRecord.status) this
    revert h2
    decide +kernel

end Joque
