import Verif.Proof.Outlive

/-! # When the label of a `run_coro` object is right: the invariant -/

namespace Joque

def Phase.late : Phase → Bool
  | .pick | .susp _ => true
  | _ => false

def Phase.early : Phase → Bool
  | .clean _ | .loopTop | .drainTop => true
  | _ => false

/-- resumptions that count: after `cleanup_coros` the present one counts too -/
def lim (s : St) : Nat := resumes s.trace + if s.phase.late then 1 else 0

/-- label `n` is no younger than the task `x` -/
def Older (tr : List Event) (n x : Node) : Prop := n = x ∨ bix tr n < bix tr x

theorem Older.append {tr : List Event} {n x : Node} (h : Older tr n x) (es : List Event) :
    Older (tr ++ es) n x := by
  rcases h with h | h
  · exact .inl h
  · exact .inr (bix_lt_append h es)

structure LabAct (s : St) : Prop where
  begun : ∀ h ∈ handles s, h.launched = true → bix s.trace h.node < s.trace.length
  ord : (handles s).Pairwise (fun a b => bix s.trace a.node < bix s.trace b.node)
  refOrd : (refsOf s).Pairwise (fun a b => bix s.trace a < bix s.trace b)
  older : ∀ sl ∈ s.todo, Older s.trace sl.ref sl.h.node
  own : ∀ sl ∈ s.todo, sl.h.launched = false → sl.ref = sl.h.node
  lab : ∀ sl ∈ s.todo, sl.h.launched = true →
    (sl.ref = sl.h.node ↔ ¬ Ow s.trace sl.h.node (lim s))
  kolder : ∀ (i : Nat) (h : Handle) (n : Node), s.kept[i]? = some h → s.passed[i]? = some n → Older s.trace n h.node
  klab : ∀ (i : Nat) (h : Handle) (n : Node), s.kept[i]? = some h → s.passed[i]? = some n →
    (n = h.node ↔ ¬ Ow s.trace h.node (resumes s.trace + 1))
  rep : s.phase.early = true → (Rep s.trace ↔ s.kept.length < s.passed.length)
  repT : s.phase.early = true → ∀ sl ∈ s.todo, RepBefore s.trace sl.h.node

/-- at each report: whether the label is right -/
def LabelAt (pre : List Event) (e : Event) : Prop :=
  ∀ er r m, e = .afterRun er r m →
    bix pre r.node < pre.length ∧ (m = r.node ↔ ¬ Ow pre r.node (resumes pre)) ∧
    Older pre m r.node

structure LabInv (C : Cfg) (s : St) : Prop where
  seen : Always LabelAt s.trace
  act : s.phase.active = true → LabAct s

theorem seen_append {tr es : List Event} (h : Always LabelAt tr)
    (he : ∀ er r m, Event.afterRun er r m ∉ es) : Always LabelAt (tr ++ es) := by
  refine always_append h ?_
  intro pre e post heq er r m hee
  subst hee
  exact absurd (by rw [heq]; simp) (he er r m)

/-- nothing changes but the history and the phase -/
theorem LabAct.grow {C : Cfg} {s s' : St} (hI : Inv C s) (h : LabAct s) {evs : List Event}
    (ht : s'.trace = s.trace ++ evs) (hev : ∀ er r m, Event.afterRun er r m ∉ evs)
    (h0 : resumes evs = 0) (htd : s'.todo = s.todo) (hk : s'.kept = s.kept)
    (hp : s'.passed = s.passed) (hl : s'.phase.late = s.phase.late)
    (he : s'.phase.early = true → s.phase.early = true) : LabAct s' := by
  have hh : handles s' = handles s := by unfold handles; rw [htd, hk]
  have hr : refsOf s' = refsOf s := by unfold refsOf; rw [htd, hp]
  have htk : resumes s'.trace = resumes s.trace := by rw [ht, resumes_append, h0]; rfl
  have hlim : lim s' = lim s := by unfold lim; rw [htk, hl]
  have hmem : ∀ sl ∈ s.todo, sl.h ∈ handles s := fun sl hsl =>
    List.mem_append_right _ (List.mem_map_of_mem hsl)
  constructor
  · intro x hx hxl
    rw [hh] at hx
    have := h.begun x hx hxl
    rw [ht, bix_begun this, List.length_append]
    omega
  · rw [hh, ht]
    exact h.ord.imp fun hab => bix_lt_append hab _
  · rw [hr, ht]
    exact h.refOrd.imp fun hab => bix_lt_append hab _
  · intro sl hsl
    rw [htd] at hsl
    rw [ht]; exact (h.older sl hsl).append _
  · intro sl hsl
    rw [htd] at hsl
    exact h.own sl hsl
  · intro sl hsl hsll
    rw [htd] at hsl
    rw [hlim, ht, Ow.append (h.begun _ (hmem sl hsl) hsll) hev]
    exact h.lab sl hsl hsll
  · intro i x n h1 h2
    rw [hk] at h1; rw [hp] at h2
    rw [ht]; exact (h.kolder i x n h1 h2).append _
  · intro i x n h1 h2
    rw [hk] at h1; rw [hp] at h2
    have hxm : x ∈ s.kept := List.mem_of_getElem? h1
    rw [htk, ht, Ow.append (h.begun x (List.mem_append_left _ hxm) (hI.keptLaunched x hxm)) hev]
    exact h.klab i x n h1 h2
  · intro hee
    rw [hk, hp, ht, Rep.append hev h0]
    exact h.rep (he hee)
  · intro hee sl hsl
    rw [htd] at hsl
    rw [ht]; exact (h.repT (he hee) sl hsl).append hev

theorem LabInv.grow {C : Cfg} {s s' : St} (hI : Inv C s) (h : LabInv C s) {evs : List Event}
    (ht : s'.trace = s.trace ++ evs) (hev : ∀ er r m, Event.afterRun er r m ∉ evs)
    (h0 : resumes evs = 0) (htd : s'.todo = s.todo) (hk : s'.kept = s.kept)
    (hp : s'.passed = s.passed) (hl : s'.phase.active = true → s'.phase.late = s.phase.late)
    (he : s'.phase.early = true → s.phase.early = true)
    (ha : s'.phase.active = true → s.phase.active = true) : LabInv C s' :=
  ⟨by rw [ht]; exact seen_append h.seen hev, fun hact =>
    (h.act (ha hact)).grow hI ht hev h0 htd hk hp (hl hact) he⟩

/-- the execution is over -/
theorem LabInv.dead {C : Cfg} {s s' : St} (h : LabInv C s) {evs : List Event}
    (ht : s'.trace = s.trace ++ evs) (hev : ∀ er r m, Event.afterRun er r m ∉ evs)
    (ha : s'.phase.active = false) : LabInv C s' :=
  ⟨by rw [ht]; exact seen_append h.seen hev, fun hact => by rw [ha] at hact; cases hact⟩

/-- the first element of `todo` is reported -/
theorem LabInv.complete {C : Cfg} {s s0 : St} (hI : Inv C s) (h : LabInv C s) {d : Bool}
    (hph : s.phase = .clean d) (hph0 : s0.phase = .clean d) {sl : Slot}
    {rest : List Slot} (hs : s.todo = sl :: rest) {evs : List Event}
    (ht : s0.trace = s.trace ++ evs) (hev : ∀ er r n, .afterRun er r n ∉ evs) (h0 : resumes evs = 0)
    (hk : s0.kept = s.kept) (hp : s0.passed = s.passed) {r : RunRecord}
    (hr : r.node = sl.h.node) (hb : bix s0.trace sl.h.node < s0.trace.length)
    (hlab : sl.ref = sl.h.node ↔ ¬ Ow s0.trace sl.h.node (resumes s0.trace)) :
    LabInv C (Joque.complete s0 sl.ref rest r) := by
  have hact : s.phase.active = true := by rw [hph]; rfl
  have hearly : s.phase.early = true := by rw [hph]; rfl
  have hA := h.act hact
  -- the state with the events before the report
  have hs1 : LabAct { s0 with todo := s.todo } :=
    hA.grow hI ht hev h0 rfl hk hp (by rw [hph]; show s0.phase.late = _; rw [hph0])
      (fun _ => hearly)
  have htr : (Joque.complete s0 sl.ref rest r).trace = s0.trace ++ [.afterRun s0.erec r sl.ref] :=
    rfl
  have hord : ∀ x ∈ rest, bix s0.trace sl.h.node < bix s0.trace x.h.node := by
    have := hs1.ord
    unfold handles at this
    simp only [hs, List.map_cons] at this
    have := (List.pairwise_append.1 this).2.1
    intro x hx
    exact (List.pairwise_cons.1 this).1 x.h (List.mem_map_of_mem hx)
  have hordk : ∀ x ∈ s0.kept, bix s0.trace x.node < bix s0.trace sl.h.node := by
    have := hs1.ord
    unfold handles at this
    simp only [hs, List.map_cons] at this
    intro x hx
    exact (List.pairwise_append.1 this).2.2 x hx sl.h (List.mem_cons_self ..)
  have hkl : ∀ x ∈ s0.kept, x.launched = true := by rw [hk]; exact hI.keptLaunched
  have hkb : ∀ x ∈ s0.kept, bix s0.trace x.node < s0.trace.length := fun x hx =>
    hs1.begun x (List.mem_append_left _ hx) (hkl x hx)
  refine ⟨?_, fun _ => ?_⟩
  · rw [htr]
    refine always_append (by rw [ht]; exact seen_append h.seen hev) ?_
    intro pre e post heq er r' m hee
    obtain ⟨rfl, rfl⟩ : pre = [] ∧ post = [] := by
      have := congrArg List.length heq
      simp only [List.length_cons, List.length_nil, List.length_append] at this
      exact ⟨List.eq_nil_of_length_eq_zero (by omega), List.eq_nil_of_length_eq_zero (by omega)⟩
    rw [List.append_nil]
    simp only [List.nil_append, List.cons.injEq, and_true] at heq
    rw [← heq] at hee
    simp only [Event.afterRun.injEq] at hee
    obtain ⟨_, rfl, rfl⟩ := hee
    rw [hr]
    exact ⟨hb, hlab, hs1.older sl (by rw [hs]; exact List.mem_cons_self ..)⟩
  · have hsub : List.Sublist (handles (Joque.complete s0 sl.ref rest r))
        (handles { s0 with todo := s.todo }) := by
      unfold handles
      show (s0.kept ++ rest.map Slot.h).Sublist (s0.kept ++ s.todo.map Slot.h)
      rw [hs, List.map_cons]
      exact (List.sublist_cons_self _ _).append_left _
    have hrefs : refsOf (Joque.complete s0 sl.ref rest r) = refsOf { s0 with todo := s.todo } := by
      unfold refsOf
      show s0.passed ++ [sl.ref] ++ rest.map Slot.ref = s0.passed ++ s.todo.map Slot.ref
      rw [hs, List.map_cons, List.append_assoc]; rfl
    have htk : resumes (Joque.complete s0 sl.ref rest r).trace = resumes s0.trace := by
      rw [htr, resumes_append]; rfl
    have hlim : lim (Joque.complete s0 sl.ref rest r) = resumes s0.trace := by
      unfold lim
      rw [htk]
      show resumes s0.trace + (if s0.phase.late = true then 1 else 0) = _
      rw [hph0]; rfl
    have hlim1 : lim { s0 with todo := s.todo } = resumes s0.trace := by
      unfold lim
      show resumes s0.trace + (if s0.phase.late = true then 1 else 0) = _
      rw [hph0]; rfl
    have hmem : ∀ x ∈ rest, x ∈ s.todo := fun x hx => by rw [hs]; exact List.mem_cons_of_mem _ hx
    have hgl : (Joque.complete s0 sl.ref rest r).passed = s0.passed ++ [sl.ref] := rfl
    have hlen : s0.kept.length ≤ s0.passed.length := by rw [hk, hp]; exact hI.passedLen
    have hpi : ∀ {i : Nat} {x : Handle} {n : Node}, s0.kept[i]? = some x → (s0.passed ++ [sl.ref])[i]? = some n →
        s0.passed[i]? = some n := by
      intro i x n h1 h2
      have := (List.getElem?_eq_some_iff.1 h1).1
      rwa [List.getElem?_append_left (by omega)] at h2
    constructor
    · intro x hx hxl
      have := hs1.begun x (hsub.subset hx) hxl
      rw [htr, List.length_append]
      rw [show bix (s0.trace ++ [.afterRun s0.erec r sl.ref]) x.node = bix s0.trace x.node from
        bix_begun this _]
      exact Nat.lt_of_lt_of_le this (Nat.le_add_right _ _)
    · refine List.Pairwise.sublist hsub ?_
      rw [htr]
      exact hs1.ord.imp fun hab => bix_lt_append hab _
    · rw [hrefs, htr]
      exact hs1.refOrd.imp fun hab => bix_lt_append hab _
    · intro x hx
      rw [htr]; exact (hs1.older x (hmem x hx)).append _
    · intro x hx
      exact hs1.own x (hmem x hx)
    · intro x hx hxl
      rw [hlim, htr]
      have hbx : bix s0.trace x.h.node < s0.trace.length :=
        hs1.begun x.h (List.mem_append_right _ (List.mem_map_of_mem (hmem x hx))) hxl
      rw [Ow.report hbx]
      have := hs1.lab x (hmem x hx) hxl
      rw [hlim1] at this
      rw [this]
      constructor
      · rintro h1 (h2 | h2)
        · exact h1 h2
        · omega
      · intro h1 h2; exact h1 (.inl h2)
    · intro i x n h1 h2
      rw [htr]
      exact (hs1.kolder i x n h1 (hpi h1 h2)).append _
    · intro i x n h1 h2
      rw [htk, htr]
      have hxm : x ∈ s0.kept := List.mem_of_getElem? h1
      rw [Ow.report (hkb x hxm)]
      have := hs1.klab i x n h1 (hpi h1 h2)
      rw [this]
      have hlt := hordk x hxm
      constructor
      · rintro h1 (h2 | ⟨h2, _⟩)
        · exact h1 h2
        · rw [hr] at h2; omega
      · intro h1 h2; exact h1 (.inl h2)
    · intro _
      rw [hgl, htr]
      refine ⟨fun _ => ?_, fun _ => rep_report⟩
      show s0.kept.length < _
      rw [List.length_append, List.length_singleton]; omega
    · intro _ x hx
      rw [htr]
      refine (hs1.repT (by show s0.phase.early = true; rw [hph0]; rfl) x (hmem x hx)).report ?_
      rw [hr]; exact hord x hx

theorem LabInv.collect {C : Cfg} {s s0 : St} (hI : Inv C s) (h : LabInv C s) {d : Bool}
    (hph : s.phase = .clean d) (hph0 : s0.phase = .clean d) {sl : Slot}
    {rest : List Slot} (hs : s.todo = sl :: rest) {evs : List Event}
    (ht : s0.trace = s.trace ++ evs) (hev : ∀ er r n, .afterRun er r n ∉ evs) (h0 : resumes evs = 0)
    (hk : s0.kept = s.kept) (hp : s0.passed = s.passed) {hd : Handle} (hhd : hd.node = sl.h.node)
    (hb : bix s0.trace sl.h.node < s0.trace.length)
    (hlab : sl.ref = sl.h.node ↔ ¬ Ow s0.trace sl.h.node (resumes s0.trace)) :
    LabInv C (Joque.collect C s0 sl.ref hd rest) := by
  unfold Joque.collect
  dsimp only
  split
  · exact h.dead (evs := evs) ht hev rfl
  · rename_i rc hrc
    have key : ∀ s1 : St, s1.trace = s0.trace ++ [.runLog hd.node (asyncLambda (C.outcome hd.node)).log] →
        s1.kept = s0.kept → s1.passed = s0.passed → s1.phase = s0.phase → ∀ r : RunRecord,
        r.node = hd.node → LabInv C (Joque.complete s1 sl.ref rest r) := by
      intro s1 e1 e2 e3 e4 r n1
      have hno : ∀ er r m, Event.afterRun er r m ∉
          [Event.runLog hd.node (asyncLambda (C.outcome hd.node)).log] := by simp
      have h01 : resumes [Event.runLog hd.node (asyncLambda (C.outcome hd.node)).log] = 0 := rfl
      refine h.complete hI hph (by rw [e4, hph0]) hs
        (evs := evs ++ [.runLog hd.node (asyncLambda (C.outcome hd.node)).log])
        (by rw [e1, ht, List.append_assoc]) ?_ (by rw [resumes_append, h0, h01]) (by rw [e2, hk])
        (by rw [e3, hp]) (by rw [n1, hhd]) ?_ ?_
      · intro er r' n hm
        rcases List.mem_append.1 hm with hm | hm
        · exact hev er r' n hm
        · exact hno er r' n hm
      · rw [e1, bix_begun hb, List.length_append]; omega
      · rw [e1, resumes_append, h01, Ow.append hb hno]
        exact hlab
    split
    · refine key _ ?_ ?_ ?_ ?_ _ ?_ <;> rfl
    · refine key _ ?_ ?_ ?_ ?_ _ ?_ <;> rfl

end Joque
