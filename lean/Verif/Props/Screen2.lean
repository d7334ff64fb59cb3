import Verif.Props.Screen
import Verif.Props.Exec5

/-! # C69, exactly: when a progress line shines through -/

namespace Joque

/-- the first line of what a verbose visitor prints in addition, if the item is such a message -/
def Item.heading (name : Node → Str) : Item → Option Str
  | .invalidated n _ => some ("Job ".toList ++ name n ++ " got invalidated: ".toList)
  | .invalidatedBy n m => some ("Task ".toList ++ name n ++ " invalidated by ".toList ++ name m)
  | .runLog n _ => some ("Job ".toList ++ name n ++ " run log: ".toList)
  | _ => none

/-- what follows the first line of a message -/
def Item.below : Item → Str
  | .invalidated _ log | .runLog _ log => log ++ ['\n']
  | _ => []

theorem feed_shift : ∀ (s : Str) (d : List Str) (l : Str) (c : Nat) (m : EscMode),
    (Term.mk d l c m).feed s =
      { (Term.mk [] l c m).feed s with done := d ++ ((Term.mk [] l c m).feed s).done } := by
  intro s
  induction s using List.reverseRecOn with
  | nil => intro d l c m; simp [Term.feed]
  | append_singleton s x ih =>
    intro d l c m
    rw [feed_append, feed_append, ih]
    generalize (Term.mk [] l c m).feed s = t
    obtain ⟨d1, l1, c1, m1⟩ := t
    simp only [Term.feed, List.foldl_cons, List.foldl_nil]
    unfold Term.putc
    cases m1 with
    | esc => rfl
    | csi => rfl
    | text =>
      dsimp only
      split
      · rfl
      · split
        · rfl
        · split
          · simp
          · rfl

/-- what is known of an item printed by any visitor -/
def ItemOK2 (N : Nat) (T : TextEnv) (i : Item) : Prop :=
  ItemOK N T i ∨ ∃ h, i.heading T.name = some h ∧ Printable h ∧ '\x1b' ∉ i.below

theorem stdout_message {T : TextEnv} {hms : Str} {i : Item} {h : Str} (hh : i.heading T.name = some h) :
    i.stdout T hms = some (h ++ ['\n'] ++ i.below) ∧ i.isStatus = false ∧ i.onStdout = true ∧
    (i.below = [] ∨ ∃ log, i.below = log ++ ['\n']) := by
  have e1 : " got invalidated: \n".toList = " got invalidated: ".toList ++ ['\n'] := by decide +kernel
  have e2 : " run log: \n".toList = " run log: ".toList ++ ['\n'] := by decide +kernel
  cases i <;> simp only [Item.heading, Option.some.injEq, reduceCtorEq] at hh <;> subst hh
  · refine ⟨?_, rfl, rfl, .inr ⟨_, rfl⟩⟩
    simp only [Item.stdout, Item.below, e1, List.append_assoc]
  · refine ⟨?_, rfl, rfl, .inl rfl⟩
    simp only [Item.stdout, Item.below, List.append_assoc, List.append_nil]
  · refine ⟨?_, rfl, rfl, .inr ⟨_, rfl⟩⟩
    simp only [Item.stdout, Item.below, e2, List.append_assoc]

/-- every message is at least as long as the progress line it is written over -/
def Covers (name : Node → Str) (its : List (Str × Item)) : Prop :=
  ∀ a p b, its = a ++ p :: b → ∀ h, p.2.heading name = some h →
    (cursorLine name a).length ≤ h.length

theorem covers_snoc {name : Node → Str} {its : List (Str × Item)} {p : Str × Item} :
    Covers name (its ++ [p]) ↔ Covers name its ∧
      ∀ h, p.2.heading name = some h → (cursorLine name its).length ≤ h.length := by
  constructor
  · intro H
    refine ⟨fun a q b hab h hh => H a q (b ++ [p]) (by rw [hab]; simp) h hh, fun h hh => ?_⟩
    exact H its p [] rfl h hh
  · rintro ⟨H, H2⟩ a q b hab h hh
    rcases List.eq_nil_or_concat b with rfl | ⟨b', x, rfl⟩
    · obtain ⟨rfl, hq⟩ := List.append_inj' hab rfl
      cases hq
      exact H2 h hh
    · rw [List.concat_eq_append, ← List.cons_append, ← List.append_assoc] at hab
      exact H a q b' (List.append_inj' hab rfl).1 h hh

theorem screen_inv2 {N : Nat} {T : TextEnv} (its : List (Str × Item))
    (hh : ∀ p ∈ its, Printable p.1 ∧ p.1.length = 6) (hok : ∀ p ∈ its, ItemOK2 N T p.2)
    (hnest : ∀ pre r post, its.map Prod.snd = pre ++ .nested r :: post →
      ∃ pre' er, pre = pre' ++ [.runEnd er r]) :
    ∃ s s' d d', stdoutOf T its = some s ∧
      stdoutOf T (its.filter (fun p => !p.2.isStatus)) = some s' ∧
      Term.blank.feed s = ⟨d, cursorLine T.name its, 0, .text⟩ ∧
      Term.blank.feed s' = ⟨d', [], 0, .text⟩ ∧
      (cursorLine T.name its = [] ∨ (cursorLine T.name its).length = 79 + 2 * (digits N).length) ∧
      d.length = d'.length ∧ (d = d' ↔ Covers T.name its) := by
  induction its using List.reverseRecOn with
  | nil =>
    exact ⟨[], [], [], [], rfl, rfl, rfl, rfl, .inl rfl, rfl, fun _ a p b h => by simp at h, fun _ => rfl⟩
  | append_singleton its p ih =>
    obtain ⟨s, s', d, d', h1, h2, h3, h4, h5, hdl, hdd⟩ := ih (fun p hp => hh p (by simp [hp]))
      (fun p hp => hok p (by simp [hp])) (by
        intro pre r post h
        exact hnest pre r (post ++ [p.2]) (by rw [List.map_append, h]; simp))
    obtain ⟨hms, i⟩ := p
    obtain ⟨hp, h6⟩ := hh (hms, i) (by simp)
    have hi := hok (hms, i) (by simp)
    replace hp : Printable hms := hp
    replace h6 : hms.length = 6 := h6
    have hle : (cursorLine T.name its).length ≤ 79 + 2 * (digits N).length := by
      rcases h5 with h | h
      · rw [h]; exact Nat.zero_le _
      · exact Nat.le_of_eq h
    have hone : ∀ x, i.stdout T hms = some x →
        stdoutOf T (its ++ [(hms, i)]) = some (s ++ x) ∧
        (i.isStatus = false →
          stdoutOf T ((its ++ [(hms, i)]).filter (fun p => !p.2.isStatus)) = some (s' ++ x)) := by
      intro x hx
      refine ⟨?_, fun hst => ?_⟩
      · rw [stdoutOf_append, h1]; simp [stdoutOf, hx]
      · rw [List.filter_append, stdoutOf_append, h2]
        simp [List.filter, hst, stdoutOf, hx]
    have hcl0 : i.isStatus = false → i.onStdout = true → cursorLine T.name (its ++ [(hms, i)]) = [] := by
      intro hst hso
      unfold cursorLine
      rw [List.filter_append]
      simp only [List.filter, hso, List.getLast?_append, List.getLast?_singleton, Option.some_or]
      cases i <;> first | rfl | cases hst
    -- no message: the same lines are added on both sides
    have hsame : i.heading T.name = none → ∀ x : List Str,
        (d ++ x).length = (d' ++ x).length ∧ (d ++ x = d' ++ x ↔ Covers T.name (its ++ [(hms, i)])) := by
      intro hno x
      refine ⟨by simp [hdl], ?_⟩
      rw [covers_snoc, List.append_left_inj, hdd]
      exact ⟨fun h => ⟨h, fun h' hh' => by rw [hno] at hh'; cases hh'⟩, fun h => h.1⟩
    rcases hi with hi | ⟨h, hhd, hpr, hesc⟩
    swap
    · obtain ⟨m1, m2, m3, m4⟩ := stdout_message (hms := hms) hhd
      obtain ⟨a1, a2⟩ := hone _ m1
      have hcl := hcl0 m2 m3
      obtain ⟨x, hx⟩ : ∃ x, (Term.mk [] [] 0 .text).feed i.below = ⟨x, [], 0, .text⟩ := by
        rcases m4 with e | ⟨log, e⟩
        · rw [e]; exact ⟨[], rfl⟩
        · rw [e, feed_append]
          have hm := feed_noesc log (Term.mk [] [] 0 .text) rfl (fun hc => hesc (by rw [e]; simp [hc]))
          generalize (Term.mk [] [] 0 .text).feed log = u at hm ⊢
          obtain ⟨d1, l1, c1, m1⟩ := u
          replace hm : m1 = .text := hm
          subst hm
          exact ⟨_, feed_newline d1 l1 c1⟩
      have hfeed : ∀ (D : List Str) (l : Str), (Term.mk D l 0 .text).feed (h ++ ['\n'] ++ i.below) =
          ⟨D ++ [h ++ l.drop h.length] ++ x, [], 0, .text⟩ := by
        intro D l
        have hw := feed_write D h [] l hpr
        simp only [List.nil_append, List.length_nil, Nat.zero_add] at hw
        rw [feed_append, feed_append, hw, feed_newline, feed_shift, hx]
      refine ⟨_, _, d ++ [h ++ (cursorLine T.name its).drop h.length] ++ x,
        d' ++ [h ++ List.drop h.length []] ++ x, a1, a2 m2, ?_, ?_, .inl hcl, ?_, ?_⟩
      · rw [hcl, feed_append, h3]; exact hfeed _ _
      · rw [feed_append, h4]; exact hfeed _ _
      · simp [hdl]
      · rw [covers_snoc, List.append_left_inj]
        constructor
        · intro he
          have he' := List.append_inj he hdl
          refine ⟨hdd.1 he'.1, fun h' hh' => ?_⟩
          cases hhd.symm.trans hh'
          have := congrArg (fun l => l.map List.length) he'.2
          simp at this
          omega
        · rintro ⟨hc, hl⟩
          rw [hdd.2 hc, List.drop_eq_nil_of_le (hl h hhd)]
          simp
    -- a whole line
    have hfull : ∀ line v pre, i.stdout T hms = some (pre ++ line ++ ['\n']) →
        (∀ d l, (Term.mk d l 0 .text).feed pre = ⟨d, l, 0, .text⟩) → Displays line v →
        79 + 2 * (digits N).length ≤ v.length → i.isStatus = false → i.onStdout = true →
        i.heading T.name = none →
        ∃ s s' d d', stdoutOf T (its ++ [(hms, i)]) = some s ∧
          stdoutOf T ((its ++ [(hms, i)]).filter (fun p => !p.2.isStatus)) = some s' ∧
          Term.blank.feed s = ⟨d, cursorLine T.name (its ++ [(hms, i)]), 0, .text⟩ ∧
          Term.blank.feed s' = ⟨d', [], 0, .text⟩ ∧
          (cursorLine T.name (its ++ [(hms, i)]) = [] ∨
            (cursorLine T.name (its ++ [(hms, i)])).length = 79 + 2 * (digits N).length) ∧
          d.length = d'.length ∧ (d = d' ↔ Covers T.name (its ++ [(hms, i)])) := by
      intro line v pre hx hpre hd hv hst hso hno
      have hcl := hcl0 hst hso
      obtain ⟨a1, a2⟩ := hone _ hx
      refine ⟨_, _, d ++ [v], d' ++ [v], a1, a2 hst, ?_, ?_, .inl hcl, hsame hno _⟩
      · rw [hcl, feed_append, h3, List.append_assoc, feed_append, hpre, feed_append,
          feed_cover hd d _ (hle.trans hv), feed_newline]
      · rw [feed_append, h4, List.append_assoc, feed_append, hpre, feed_append,
          feed_cover hd d' _ (Nat.zero_le _), feed_newline]
    have hsame0 : i.heading T.name = none →
        d.length = d'.length ∧ (d = d' ↔ Covers T.name (its ++ [(hms, i)])) := by
      intro hno; simpa using hsame hno []
    cases i with
    | invalidated n log => exact hi.elim
    | invalidatedBy n m => exact hi.elim
    | runLog n log => exact hi.elim
    | noJob n =>
      have hcl : cursorLine T.name (its ++ [(hms, .noJob n)]) = cursorLine T.name its := by
        unfold cursorLine; rw [List.filter_append]; simp [List.filter, Item.onStdout]
      obtain ⟨a1, a2⟩ := hone [] rfl
      rw [hcl]
      exact ⟨_, _, d, d', a1, a2 rfl, by rw [List.append_nil]; exact h3,
        by rw [List.append_nil]; exact h4, h5, hsame0 rfl⟩
    | cycle c =>
      have hcl : cursorLine T.name (its ++ [(hms, .cycle c)]) = cursorLine T.name its := by
        unfold cursorLine; rw [List.filter_append]; simp [List.filter, Item.onStdout]
      obtain ⟨a1, a2⟩ := hone [] rfl
      rw [hcl]
      exact ⟨_, _, d, d', a1, a2 rfl, by rw [List.append_nil]; exact h3,
        by rw [List.append_nil]; exact h4, h5, hsame0 rfl⟩
    | nested r =>
      obtain ⟨pre', er, hpre⟩ := hnest (its.map Prod.snd) r [] (by simp)
      have hcur : cursorLine T.name its = [] := by
        obtain ⟨its', q, rfl⟩ : ∃ its' q, its = its' ++ [q] := by
          rcases List.eq_nil_or_concat its with rfl | ⟨a, b, h⟩
          · simp at hpre
          · exact ⟨a, b, by rw [h, List.concat_eq_append]⟩
        rw [List.map_append, List.map_cons, List.map_nil] at hpre
        have hq : q.2 = .runEnd er r := by
          have := (List.append_inj' hpre rfl).2
          simpa using this
        obtain ⟨q1, q2⟩ := q
        replace hq : q2 = .runEnd er r := hq
        subst hq
        unfold cursorLine
        rw [List.filter_append]
        simp [List.filter, Item.onStdout]
      obtain ⟨a1, a2⟩ := hone _ rfl
      have hcl := hcl0 rfl rfl
      obtain ⟨x, hx⟩ := feed_nested [] r.output hi
      refine ⟨_, _, d ++ x, d' ++ x, a1, a2 rfl, ?_, ?_, .inl hcl, hsame rfl x⟩
      · rw [hcl, feed_append, h3, hcur, feed_shift]
        rw [show Term.feed (Term.mk [] [] 0 .text) _ = _ from hx]
      · rw [feed_append, h4, feed_shift]
        rw [show Term.feed (Term.mk [] [] 0 .text) _ = _ from hx]
    | runEnd er r =>
      obtain ⟨e1, e2, e3, e4⟩ := hi
      obtain ⟨line, l1, l2⟩ := line_runEnd hp (er := er) (by omega) e3 e4
      refine hfull line _ [] ?_ (fun _ _ => rfl) l2 ?_ rfl rfl rfl
      · show (formatRunEnd hms T.shown er r).map _ = _
        rw [l1]; rfl
      · rw [e1]
        exact (length_taskLine h6 (by omega) (by cases r.status <;> decide) _ _).1
    | summary er =>
      obtain ⟨e1, e2, e3⟩ := hi
      obtain ⟨t, ht, -⟩ := C41_least T.clock er e3
      obtain ⟨line, l1, l2⟩ := line_execEnd hp (er := er) (by omega) ht
      refine hfull line _ carriage ?_ (fun d l => feed_carriage d l 0) l2 ?_ rfl rfl rfl
      · show (formatExecEnd hms T.clock er).map _ = _
        rw [l1]; rfl
      · rw [e1]; exact length_summaryLine h6 _ _ _
    | status er n =>
      obtain ⟨e1, e2, e3⟩ := hi
      obtain ⟨line, l1, l2⟩ := line_status hp (er := er) (by omega) e3
      have hlen := (length_taskLine h6 (count := er.runs.length + 1) (total := er.totalCount)
        (by omega) (status := "STRT".toList) (by decide +kernel) (T.name n) none).2 rfl
      rw [e1] at hlen
      have hcl : cursorLine T.name (its ++ [(hms, .status er n)]) =
          taskLine hms (er.runs.length + 1) er.totalCount "STRT".toList (T.name n) none := by
        unfold cursorLine; rw [List.filter_append]; simp [List.filter, Item.onStdout]
      have hx : (Item.status er n).stdout T hms = some (line ++ carriage) := by
        show (formatStatus hms er (T.name n)).map _ = _
        rw [l1]; rfl
      obtain ⟨a1, _⟩ := hone _ hx
      refine ⟨_, s', d, d', a1, ?_, ?_, h4, .inr ?_, hsame0 rfl⟩
      · rw [List.filter_append]
        simp [List.filter, Item.isStatus]
        exact h2
      · rw [hcl, feed_append, h3, feed_append, feed_cover l2 d _ (by rw [e1, hlen]; exact hle),
          feed_carriage]
      · rw [hcl, e1]; exact hlen

theorem nestedOK_onAll2 (E : VisitEnv) : ∀ (es : List Event) (v : Visitor),
    NestedOK (v.onAll E es).2 := by
  intro es
  induction es with
  | nil => intro v; exact nestedOK_of_no (by intro r h; cases h)
  | cons e es ih =>
    intro v
    rw [Visitor.onAll]
    refine NestedOK.append ?_ (ih _)
    cases e with
    | afterRun er r n =>
      show NestedOK (v.afterRun E er r n).2
      unfold Visitor.afterRun
      refine NestedOK.append ?_ ?_
      · by_cases hr : (v.verbose || decide (r.retcode ≠ 0)) = true
        swap
        · rw [if_neg (c := (v.verbose || decide (r.retcode ≠ 0)) = true) hr, List.append_nil]
          refine nestedOK_of_no ?_
          intro r' h
          split at h
          · simp at h
          · cases h
        · rw [if_pos hr, if_pos (by rw [Bool.or_assoc, hr, Bool.or_true])]
          intro pre r' post h
          match pre, h with
          | [], h => simp at h
          | [x], h =>
            simp at h
            exact ⟨[], er, by rw [← h.1, h.2.1]; rfl⟩
          | x :: y :: pre, h => simp at h
      · refine nestedOK_of_no ?_
        intro r' h
        split at h
        · cases h
        · simp at h
    | beforeRun er n =>
      show NestedOK (v.beforeRun E er n).2
      unfold Visitor.beforeRun
      refine nestedOK_of_no ?_
      intro r h
      split at h
      · simp at h
      · cases h
    | nodeEnque n =>
      refine nestedOK_of_no ?_
      intro r h
      replace h : Item.nested r ∈ (if E.hasJob n then [] else [Item.noJob n]) := h
      split at h
      · cases h
      · simp at h
    | detectedCycle c => exact nestedOK_of_no (by intro r h; simp [Visitor.on] at h)
    | jobInval n i log => exact nestedOK_of_no (by intro r h; have : _ := h; simp only [Visitor.on] at this; split at this <;> simp at this)
    | depInval n m => exact nestedOK_of_no (by intro r h; have : _ := h; simp only [Visitor.on] at this; split at this <;> simp at this)
    | runLog n log => exact nestedOK_of_no (by intro r h; have : _ := h; simp only [Visitor.on] at this; split at this <;> simp at this)
    | afterExecution er => exact nestedOK_of_no (by intro r h; simp [Visitor.on] at h)
    | resumed => exact nestedOK_of_no (by intro r h; cases h)
    | onTick er => exact nestedOK_of_no (by intro r h; cases h)
    | launch n => exact nestedOK_of_no (by intro r h; cases h)
    | jobBegin n b => exact nestedOK_of_no (by intro r h; cases h)
    | jobEnd n => exact nestedOK_of_no (by intro r h; cases h)

theorem items_ok2 (C : Cfg) (hwf : C.dag.WF) (ms : List Move) (E : VisitEnv) (T : TextEnv)
    (hne : C.dag.nodes ≠ []) (hname : T.name = C.dag.name)
    (hpn : ∀ n, Printable (C.dag.name n)) (hpd : ∀ r, Printable (T.shown r))
    (hout : ∀ r ∈ recsOf (exec C ms).trace, '\x1b' ∉ allText r.output)
    (hlog : ∀ n log, (.runLog n log ∈ (exec C ms).trace ∨ .jobInval n .invalid log ∈ (exec C ms).trace) →
      '\x1b' ∉ log) (verbose : Bool) :
    ∀ i ∈ ((Visitor.init verbose).onAll E (exec C ms).trace).2, ItemOK2 C.dag.nodes.length T i := by
  obtain ⟨hI, hT⟩ := both_exec hwf ms
  intro i h
  obtain ⟨pre, e, post, htr, h⟩ := item_split h
  generalize ((Visitor.init verbose).onAll E pre).1 = v at *
  have hnl : ∀ l : Str, '\x1b' ∉ l → '\x1b' ∉ l ++ ['\n'] := by
    intro l hl; simpa using hl
  have hhead : ∀ a b : Str, Printable a → Printable b → Printable (a ++ b) := by
    intro a b ha hb x hx
    exact (List.mem_append.1 hx).elim (ha x) (hb x)
  have hg := hT.always pre e post htr
  cases e with
  | nodeEnque n =>
    replace h : i ∈ (if E.hasJob n then [] else [Item.noJob n]) := h
    split at h
    · cases h
    · rw [List.mem_singleton] at h; subst h; exact .inl trivial
  | detectedCycle c =>
    replace h : i ∈ [Item.cycle c] := h
    rw [List.mem_singleton] at h; subst h; exact .inl trivial
  | jobInval n inv log =>
    replace h : i ∈ (if v.verbose && inv = .invalid then [Item.invalidated n log] else []) := h
    split at h
    · rename_i hc
      rw [Bool.and_eq_true, decide_eq_true_eq] at hc
      rw [List.mem_singleton] at h; subst h
      refine .inr ⟨_, rfl, hhead _ _ (hhead _ _ (by unfold Printable; decide +kernel) (by rw [hname]; exact hpn n))
        (by unfold Printable; decide +kernel), hnl _ (hlog n log (.inr ?_))⟩
      rw [htr, hc.2]; simp
    · cases h
  | depInval n m =>
    replace h : i ∈ (if v.verbose then [Item.invalidatedBy n m] else []) := h
    split at h
    · rw [List.mem_singleton] at h; subst h
      exact .inr ⟨_, rfl, hhead _ _ (hhead _ _ (hhead _ _ (by unfold Printable; decide +kernel) (by rw [hname]; exact hpn n))
        (by unfold Printable; decide +kernel)) (by rw [hname]; exact hpn m), by simp [Item.below]⟩
    · cases h
  | runLog n log =>
    replace h : i ∈ (if v.verbose then [Item.runLog n log] else []) := h
    split at h
    · rw [List.mem_singleton] at h; subst h
      refine .inr ⟨_, rfl, hhead _ _ (hhead _ _ (by unfold Printable; decide +kernel) (by rw [hname]; exact hpn n))
        (by unfold Printable; decide +kernel), hnl _ (hlog n log (.inl ?_))⟩
      rw [htr]; simp
    · cases h
  | afterExecution er =>
    replace h : i ∈ [Item.summary er] := h
    rw [List.mem_singleton] at h; subst h
    have hok := hg.2.1
    refine .inl ⟨hok.total, fun h => hne (List.length_eq_zero_iff.1 h), ?_⟩
    obtain ⟨n, hn⟩ := List.exists_mem_of_ne_nil _ hne
    obtain ⟨r, hr, _⟩ := hg.2.2 n hn
    rw [hok.runs]
    exact List.ne_nil_of_mem hr
  | beforeRun er n =>
    have hlt := runs_lt_total C hwf ms er (.inl ⟨n, by rw [htr]; simp⟩)
    have htot := hg.2.2.2.1.total
    replace h : i ∈ (v.beforeRun E er n).2 := h
    unfold Visitor.beforeRun at h
    split at h
    · rw [List.mem_singleton] at h; subst h
      exact .inl ⟨htot, by rw [← htot]; exact hlt, by rw [hname]; exact hpn n⟩
    · cases h
  | afterRun er r n =>
    have hlt := runs_lt_total C hwf ms er (.inr ⟨r, n, by rw [htr]; simp⟩)
    have htot := hg.2.1.total
    have hr : r ∈ recsOf (exec C ms).trace := mem_recsOf.2 ⟨er, n, by rw [htr]; simp⟩
    replace h : i ∈ (v.afterRun E er r n).2 := h
    unfold Visitor.afterRun at h
    rcases List.mem_append.1 h with h | h
    · rcases List.mem_append.1 h with h | h
      · split at h
        · rw [List.mem_singleton] at h; subst h
          refine .inl ⟨htot, by rw [← htot]; exact hlt, ?_, hpd r⟩
          rw [hT.recs] at hr
          rw [(hI.recs r hr).name]; exact hpn _
        · cases h
      · split at h
        · rw [List.mem_singleton] at h; subst h
          exact .inl (hout r hr)
        · cases h
    · split at h
      · cases h
      · rw [List.mem_singleton] at h; subst h
        exact .inl ⟨htot, by rw [← htot]; exact hlt, by rw [hname]; exact hpn _⟩
  | resumed => cases h
  | onTick er => cases h
  | launch n => cases h
  | jobBegin n b => cases h
  | jobEnd n => cases h


theorem cursorLine_noStatus {name : Node → Str} {its : List (Str × Item)}
    (h : ∀ p ∈ its, p.2.isStatus = false) : cursorLine name its = [] := by
  unfold cursorLine
  cases hl : (its.filter fun p => p.2.onStdout).getLast? with
  | none => rfl
  | some p =>
    have := h p (List.mem_of_mem_filter (List.mem_of_getLast? hl))
    obtain ⟨q, i⟩ := p
    cases i <;> first | rfl | cases this

/-- what a visitor prints about the invalidation comes before its first progress line -/
theorem headings_early (C : Cfg) (hwf : C.dag.WF) (ms : List Move) (E : VisitEnv) (v : Visitor) :
    ∃ i1 i2, (v.onAll E (exec C ms).trace).2 = i1 ++ i2 ∧ (∀ i ∈ i1, i.isStatus = false ∧ ∀ n l, i ≠ .runLog n l) ∧
      ∀ i ∈ i2, (∀ n l, i ≠ .invalidated n l) ∧ ∀ n m, i ≠ .invalidatedBy n m := by
  have hearly : ∀ es : List Event, (∀ e ∈ es, e = .resumed ∨ (∃ n, e = .nodeEnque n) ∨
      (∃ n i l, e = .jobInval n i l) ∨ (∃ c, e = .detectedCycle c) ∨ ∃ n m, e = .depInval n m) →
      ∀ i ∈ (v.onAll E es).2, i.isStatus = false ∧ ∀ n l, i ≠ .runLog n l := by
    intro es hes i hi
    obtain ⟨pre, e, post, he, hi⟩ := item_split hi
    generalize (v.onAll E pre).1 = w at hi
    rcases hes e (by rw [he]; simp) with rfl | ⟨n, rfl⟩ | ⟨n, iv, l, rfl⟩ | ⟨c, rfl⟩ | ⟨n, m, rfl⟩
    · cases hi
    all_goals
      simp only [Visitor.on] at hi
      first
        | (split at hi <;> simp at hi <;> subst hi <;> exact ⟨rfl, by simp⟩)
        | (simp at hi; subst hi; exact ⟨rfl, by simp⟩)
  have hlate : ∀ (w : Visitor) (es : List Event), (∀ e ∈ es, (∀ n, e ≠ .nodeEnque n) ∧
      (∀ c, e ≠ .detectedCycle c) ∧ (∀ n i l, e ≠ .jobInval n i l) ∧ (∀ n m, e ≠ .depInval n m)) →
      ∀ i ∈ (w.onAll E es).2, (∀ n l, i ≠ .invalidated n l) ∧ ∀ n m, i ≠ .invalidatedBy n m := by
    intro w es hes i hi
    obtain ⟨pre, e, post, he, hi⟩ := item_split hi
    obtain ⟨h1, h2, h3, h4⟩ := hes e (by rw [he]; simp)
    generalize (w.onAll E pre).1 = u at hi
    refine ⟨?_, ?_⟩
    · rintro n l rfl
      cases e <;> simp [Visitor.on, Visitor.beforeRun, Visitor.afterRun] at hi h3 <;>
        (try split at hi) <;> simp at hi
    · rintro n l rfl
      cases e <;> simp [Visitor.on, Visitor.beforeRun, Visitor.afterRun] at hi h4 <;>
        (try split at hi) <;> simp at hi
  rcases C15_prologue C hwf ms with h | ⟨asked, mid, rest, htr, -, -, hmid, hrest, -⟩
  · rw [h]; exact ⟨[], [], rfl, by simp, by simp⟩
  · have hP : ∀ e ∈ Event.resumed :: C.dag.nodes.map Event.nodeEnque ++ asked.map (fun p =>
          Event.jobInval p.1 (if p.2.invalidated then .invalid else .valid) p.2.log) ++ mid,
        e = .resumed ∨ (∃ n, e = .nodeEnque n) ∨
        (∃ n i l, e = .jobInval n i l) ∨ (∃ c, e = .detectedCycle c) ∨ ∃ n m, e = .depInval n m := by
      intro e he
      rcases List.mem_append.1 he with he | he
      · rcases List.mem_append.1 he with he | he
        · rcases List.mem_cons.1 he with rfl | he
          · exact .inl rfl
          · obtain ⟨n, -, rfl⟩ := List.mem_map.1 he
            exact .inr (.inl ⟨n, rfl⟩)
        · obtain ⟨p, -, rfl⟩ := List.mem_map.1 he
          exact .inr (.inr (.inl ⟨_, _, _, rfl⟩))
      · exact .inr (.inr (.inr (hmid e he)))
    rcases htr with htr | ⟨-, -, htr⟩
    · rw [htr, onAll_append]
      exact ⟨_, _, rfl, hearly _ hP, hlate _ _ hrest⟩
    · exact ⟨_, [], (List.append_nil _).symm, hearly _ (fun e he => hP e (htr.subset he)), by simp⟩

/-- **C69**, exactly.  Any visitor, verbose or not: whatever it prints, the lines above the cursor are
those which would be there without any progress line if and only if no run log was printed on top of
a progress line longer than the heading of the log: each job whose log is printed while a progress
line is in place has a name of at least 65 characters and two more for every digit of the number of
tasks.  In every case the screen has as many lines as without progress lines, and the line of the
cursor is the last progress line, whole, or empty. -/
theorem C69_exact (C : Cfg) (hwf : C.dag.WF) (ms : List Move) (E : VisitEnv) (T : TextEnv)
    (hne : C.dag.nodes ≠ []) (hname : T.name = C.dag.name)
    (hpn : ∀ n, Printable (C.dag.name n)) (hpd : ∀ r, Printable (T.shown r))
    (hout : ∀ r ∈ recsOf (exec C ms).trace, '\x1b' ∉ allText r.output)
    (hlog : ∀ n log, (.runLog n log ∈ (exec C ms).trace ∨ .jobInval n .invalid log ∈ (exec C ms).trace) →
      '\x1b' ∉ log) (verbose : Bool)
    (its : List (Str × Item)) (hh : ∀ p ∈ its, Printable p.1 ∧ p.1.length = 6)
    (hits : its.map Prod.snd = ((Visitor.init verbose).onAll E (exec C ms).trace).2) :
    ∃ s s' d d', stdoutOf T its = some s ∧
      stdoutOf T (its.filter (fun p => !p.2.isStatus)) = some s' ∧
      Term.blank.feed s' = ⟨d', [], 0, .text⟩ ∧
      Term.blank.feed s = ⟨d, cursorLine T.name its, 0, .text⟩ ∧ d.length = d'.length ∧
      (d = d' ↔ ∀ a h n log b, its = a ++ (h, .runLog n log) :: b → cursorLine T.name a ≠ [] →
        65 + 2 * (digits C.dag.nodes.length).length ≤ (C.dag.name n).length) := by
  have hok : ∀ p ∈ its, ItemOK2 C.dag.nodes.length T p.2 := fun p hp =>
    items_ok2 C hwf ms E T hne hname hpn hpd hout hlog verbose p.2
      (by rw [← hits]; exact List.mem_map_of_mem hp)
  have hnest : NestedOK (its.map Prod.snd) := by rw [hits]; exact nestedOK_onAll2 E _ _
  obtain ⟨s, s', d, d', h1, h2, h3, h4, -, h6, h7⟩ :=
    screen_inv2 (N := C.dag.nodes.length) (T := T) its hh hok hnest
  refine ⟨s, s', d, d', h1, h2, h4, h3, h6, h7.trans ?_⟩
  have hlen : ∀ a b, its = a ++ b → cursorLine T.name a = [] ∨
      (cursorLine T.name a).length = 79 + 2 * (digits C.dag.nodes.length).length := by
    intro a b hab
    obtain ⟨-, -, -, -, -, -, -, -, h5, -⟩ := screen_inv2 (N := C.dag.nodes.length) (T := T) a
      (fun p hp => hh p (by rw [hab]; simp [hp])) (fun p hp => hok p (by rw [hab]; simp [hp]))
      (by
        intro pre r post h
        exact hnest pre r (post ++ b.map Prod.snd) (by rw [hab, List.map_append, h]; simp))
    exact h5
  have hhead : ∀ n log, ((Item.runLog n log).heading T.name) =
      some ("Job ".toList ++ C.dag.name n ++ " run log: ".toList) := by
    intro n log; rw [← hname]; rfl
  have hhl : ∀ n, ("Job ".toList ++ C.dag.name n ++ " run log: ".toList).length =
      14 + (C.dag.name n).length := by
    intro n
    rw [List.length_append, List.length_append, show "Job ".toList.length = 4 from by decide +kernel,
      show " run log: ".toList.length = 10 from by decide +kernel]
    omega
  constructor
  · intro H a h n log b hab hcl
    have := H a _ b hab _ (hhead n log)
    rw [hhl, (hlen a _ hab).resolve_left hcl] at this
    omega
  · intro H a p b hab h hh'
    obtain ⟨q, i⟩ := p
    obtain ⟨i1, i2, hsp, he1, he2⟩ := headings_early C hwf ms E (Visitor.init verbose)
    rw [← hits, hab, List.map_append, List.map_cons] at hsp
    have hzero : (∀ n l, i ≠ .runLog n l) → cursorLine T.name a = [] := by
      intro hno
      refine cursorLine_noStatus fun p hp => ?_
      rcases List.append_eq_append_iff.1 hsp with ⟨c, hc, -⟩ | ⟨c, hc, hc'⟩
      · exact (he1 p.2 (by rw [hc]; exact List.mem_append_left _ (List.mem_map_of_mem hp))).1
      · cases c with
        | nil =>
          rw [List.append_nil] at hc
          exact (he1 p.2 (by rw [← hc]; exact List.mem_map_of_mem hp)).1
        | cons x c =>
          have := he2 i (by rw [hc']; simp)
          cases i <;> simp [Item.heading] at hh' this hno
    cases i with
    | runLog n log =>
      by_cases hcl : cursorLine T.name a = []
      · rw [hcl]; exact Nat.zero_le _
      · have hb := H a q n log b hab hcl
        cases (hhead n log).symm.trans hh'
        rw [hhl, (hlen a _ hab).resolve_left hcl]
        omega
    | _ => rw [hzero (by simp)]; exact Nat.zero_le _

namespace Ex

/-- the example with names of `k` characters -/
def longCfg (k : Nat) : Cfg :=
  { Ex.cfg 2 with dag := { (Ex.cfg 2).dag with name := fun _ => List.replicate k 'x' } }

def longText (k : Nat) : TextEnv :=
  { name := fun _ => List.replicate k 'x', shown := fun _ => "7ms".toList, clock := fun i => i }

def longItems (k : Nat) : List (Str × Item) :=
  ((Visitor.init true).onAll (noneHidden (Ex.cfg 2)) (exec (longCfg k) Ex.done2).trace).2.map
    fun i => (noonHms, i)

end Ex

/-- the hypotheses of `C69_exact` for a verbose visitor; five tasks, so the bound is 67 -/
theorem C69_exact_example (k : Nat) (hk : k = 66 ∨ k = 67) :
    ∃ s s' d d', stdoutOf (Ex.longText k) (Ex.longItems k) = some s ∧
      stdoutOf (Ex.longText k) ((Ex.longItems k).filter (fun p => !p.2.isStatus)) = some s' ∧
      Term.blank.feed s' = ⟨d', [], 0, .text⟩ ∧
      Term.blank.feed s = ⟨d, cursorLine (Ex.longText k).name (Ex.longItems k), 0, .text⟩ ∧
      d.length = d'.length ∧
      (d = d' ↔ ∀ a h n log b, Ex.longItems k = a ++ (h, .runLog n log) :: b →
        cursorLine (Ex.longText k).name a ≠ [] → 67 ≤ k) := by
  have hpx : Printable (List.replicate k 'x') := by
    intro c hc
    rw [List.eq_of_mem_replicate hc]
    decide
  have h7 : Printable "7ms".toList := by unfold Printable; decide +kernel
  have hnoon : Printable noonHms := by unfold Printable; decide +kernel
  obtain ⟨s, s', d, d', h1, h2, h3, h4, h5, h6⟩ := C69_exact (Ex.longCfg k)
    ⟨(Ex.wf 2).nodup, (Ex.wf 2).closed⟩ Ex.done2
    (noneHidden (Ex.cfg 2)) (Ex.longText k) (List.cons_ne_nil _ _) rfl (fun _ => hpx)
    (fun _ => h7)
    (by rcases hk with rfl | rfl <;> decide +kernel)
    (by
      intro n log h
      have : ∀ e ∈ (exec (Ex.longCfg k) Ex.done2).trace, (match e with
          | .runLog _ l => l.contains '\x1b'
          | .jobInval _ _ l => l.contains '\x1b'
          | _ => false) = false := by
        rcases hk with rfl | rfl <;> decide +kernel
      intro hc
      rcases h with h | h
      · simpa [hc] using this _ h
      · simpa [hc] using this _ h)
    true (Ex.longItems k) (by
      intro p hp
      obtain ⟨i, -, rfl⟩ := List.mem_map.1 hp
      exact ⟨hnoon, rfl⟩)
    (by rw [Ex.longItems, List.map_map]; exact List.map_id _)
  refine ⟨s, s', d, d', h1, h2, h3, h4, h5, h6.trans ?_⟩
  have e : (digits (Ex.longCfg k).dag.nodes.length).length = 1 :=
    show (digits 5).length = 1 by decide +kernel
  have e2 : ∀ n, ((Ex.longCfg k).dag.name n).length = k := fun n => List.length_replicate
  simp only [e, e2]

/-- names of 67 characters are enough, 66 are not -/
example : (∀ a h n log b, Ex.longItems 67 = a ++ (h, .runLog n log) :: b →
      cursorLine (Ex.longText 67).name a ≠ [] → 67 ≤ 67) ∧
    ¬ ∀ a h n log b, Ex.longItems 66 = a ++ (h, .runLog n log) :: b →
      cursorLine (Ex.longText 66).name a ≠ [] → 67 ≤ 66 := by
  refine ⟨fun _ _ _ _ _ _ _ => Nat.le_refl _, fun H => ?_⟩
  have h5 : ∃ h n log, (Ex.longItems 66).drop 5 = (h, Item.runLog n log) :: (Ex.longItems 66).drop 6 := by
    have : (match (Ex.longItems 66)[5]? with | some (_, .runLog _ _) => true | _ => false) = true := by
      decide +kernel
    split at this
    · rename_i h n log hx
      obtain ⟨hl, hx⟩ := List.getElem?_eq_some_iff.1 hx
      exact ⟨h, n, log, by rw [List.drop_eq_getElem_cons hl, hx]⟩
    · cases this
  obtain ⟨h, n, log, h5⟩ := h5
  have := H ((Ex.longItems 66).take 5) _ _ _ _ ((List.take_append_drop 5 _).symm.trans (by rw [h5]))
    (by decide +kernel)
  omega

end Joque
