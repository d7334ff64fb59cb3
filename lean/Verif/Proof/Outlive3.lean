import Verif.Proof.Outlive2

/-! # When the label of a `run_coro` object is right: every move keeps the invariant -/

namespace Joque

theorem LabAct.kept_label {C : Cfg} {s : St} (hI : Inv C s) (hA : LabAct s) {d : Bool}
    (hph : s.phase = .clean d) {sl : Slot} {rest : List Slot} (hs : s.todo = sl :: rest)
    (hl : sl.h.launched = true) :
    LabAct { s with kept := s.kept ++ [sl.h], passed := s.passed ++ [sl.ref], todo := rest } := by
  have hlen := hI.passedLen
  have hearly : s.phase.early = true := by rw [hph]; rfl
  have hmem : ∀ x ∈ rest, x ∈ s.todo := fun x hx => by rw [hs]; exact List.mem_cons_of_mem _ hx
  have hslm : sl ∈ s.todo := by rw [hs]; exact List.mem_cons_self ..
  have hh : handles { s with kept := s.kept ++ [sl.h], passed := s.passed ++ [sl.ref], todo := rest } = handles s := by
    unfold handles
    show s.kept ++ [sl.h] ++ rest.map Slot.h = s.kept ++ s.todo.map Slot.h
    rw [hs, List.map_cons, List.append_assoc]; rfl
  have hr : refsOf { s with kept := s.kept ++ [sl.h], passed := s.passed ++ [sl.ref], todo := rest } = refsOf s := by
    unfold refsOf
    show s.passed ++ [sl.ref] ++ rest.map Slot.ref = s.passed ++ s.todo.map Slot.ref
    rw [hs, List.map_cons, List.append_assoc]; rfl
  have hlim : lim s = resumes s.trace := by unfold lim; rw [hph]; rfl
  have hbT := hA.repT hearly sl hslm
  -- what is known about the object the handle goes to
  have new : ∀ n, (s.passed ++ [sl.ref])[s.kept.length]? = some n →
      Older s.trace n sl.h.node ∧
      (n = sl.h.node ↔ ¬ Ow s.trace sl.h.node (resumes s.trace + 1)) := by
    intro n hn
    have hlab := hA.lab sl hslm hl
    rw [hlim] at hlab
    rw [Ow.succ hbT, hA.rep hearly]
    by_cases hlt : s.kept.length < s.passed.length
    · rw [List.getElem?_append_left hlt] at hn
      have hnm : n ∈ s.passed := List.mem_of_getElem? hn
      have h1 : bix s.trace n < bix s.trace sl.ref := by
        have := hA.refOrd
        unfold refsOf at this
        exact (List.pairwise_append.1 this).2.2 n hnm sl.ref (List.mem_map_of_mem hslm)
      have h2 : bix s.trace n < bix s.trace sl.h.node := by
        rcases hA.older sl hslm with h3 | h3
        · rw [← h3]; exact h1
        · omega
      refine ⟨.inr h2, fun h3 => ?_, fun h3 => absurd (.inr hlt) h3⟩
      rw [h3] at h2; omega
    · have he : s.kept.length = s.passed.length := by omega
      rw [he, List.getElem?_append_right (Nat.le_refl _), Nat.sub_self] at hn
      simp only [List.getElem?_cons_zero, Option.some.injEq] at hn
      subst hn
      refine ⟨hA.older sl hslm, ?_⟩
      rw [hlab]
      exact ⟨fun h1 h2 => h2.elim h1 (fun h => by omega), fun h1 h2 => h1 (.inl h2)⟩
  have old : ∀ {i : Nat} {h : Handle} {n : Node}, (s.kept ++ [sl.h])[i]? = some h →
      (s.passed ++ [sl.ref])[i]? = some n →
      (s.kept[i]? = some h ∧ s.passed[i]? = some n) ∨ (i = s.kept.length ∧ h = sl.h) := by
    intro i h n h1 h2
    by_cases hi : i < s.kept.length
    · rw [List.getElem?_append_left hi] at h1
      rw [List.getElem?_append_left (by omega)] at h2
      exact .inl ⟨h1, h2⟩
    · have hi2 := (List.getElem?_eq_some_iff.1 h1).1
      rw [List.length_append, List.length_singleton] at hi2
      have hie : i = s.kept.length := by omega
      rw [hie, List.getElem?_append_right (Nat.le_refl _), Nat.sub_self] at h1
      simp only [List.getElem?_cons_zero, Option.some.injEq] at h1
      exact .inr ⟨hie, h1.symm⟩
  constructor
  · rw [hh]; exact hA.begun
  · rw [hh]; exact hA.ord
  · rw [hr]; exact hA.refOrd
  · intro x hx; exact hA.older x (hmem x hx)
  · intro x hx; exact hA.own x (hmem x hx)
  · intro x hx; exact hA.lab x (hmem x hx)
  · intro i h n h1 h2
    rcases old h1 h2 with ⟨h3, h4⟩ | ⟨rfl, rfl⟩
    · exact hA.kolder i h n h3 h4
    · exact (new n h2).1
  · intro i h n h1 h2
    rcases old h1 h2 with ⟨h3, h4⟩ | ⟨rfl, rfl⟩
    · exact hA.klab i h n h3 h4
    · exact (new n h2).2
  · intro _
    show Rep s.trace ↔ (s.kept ++ [sl.h]).length < (s.passed ++ [sl.ref]).length
    rw [hA.rep hearly, List.length_append, List.length_append, List.length_singleton,
      List.length_singleton]
    omega
  · intro _ x hx; exact hA.repT hearly x (hmem x hx)

theorem LabAct.swept {C : Cfg} {s : St} (hI : Inv C s) (hA : LabAct s) (hs : s.todo = [])
    {p : Phase} (hl : p.late = true) :
    LabAct { s with todo := List.zipWith Slot.mk s.passed s.kept, kept := [], passed := [],
                    phase := p } := by
  have hlen := hI.passedLen
  have zh : ∀ (a : List Node) (b : List Handle), b.length ≤ a.length →
      (List.zipWith Slot.mk a b).map Slot.h = b := by
    intro a b
    induction b generalizing a with
    | nil => intro _; simp
    | cons y b ih =>
      intro hl
      cases a with
      | nil => simp at hl
      | cons x a => rw [List.zipWith_cons_cons, List.map_cons, ih a (by simpa using hl)]
  have zr : ∀ (a : List Node) (b : List Handle),
      ((List.zipWith Slot.mk a b).map Slot.ref).Sublist a := by
    intro a
    induction a with
    | nil => intro b; simp
    | cons x a ih =>
      intro b
      cases b with
      | nil => simp
      | cons y b => rw [List.zipWith_cons_cons, List.map_cons]; exact (ih b).cons_cons x
  have hz : ∀ sl ∈ List.zipWith Slot.mk s.passed s.kept, ∃ i : Nat,
      s.kept[i]? = some sl.h ∧ s.passed[i]? = some sl.ref := by
    intro sl hsl
    obtain ⟨i, hi⟩ := List.getElem?_of_mem hsl
    rw [List.getElem?_zipWith] at hi
    refine ⟨i, ?_⟩
    split at hi
    · rename_i a b h1 h2
      simp only [Option.some.injEq] at hi
      subst hi; exact ⟨h2, h1⟩
    · cases hi
  have hlim : lim { s with todo := List.zipWith Slot.mk s.passed s.kept, kept := [], passed := [], phase := p } = resumes s.trace + 1 := by
    unfold lim
    show resumes s.trace + (if p.late = true then 1 else 0) = _
    rw [if_pos hl]
  have hhd : handles { s with todo := List.zipWith Slot.mk s.passed s.kept, kept := [], passed := [], phase := p } = handles s := by
    unfold handles
    show [] ++ (List.zipWith Slot.mk s.passed s.kept).map Slot.h = s.kept ++ s.todo.map Slot.h
    rw [zh _ _ hlen, hs]; simp
  constructor
  · rw [hhd]; exact hA.begun
  · rw [hhd]; exact hA.ord
  · refine List.Pairwise.sublist ?_ hA.refOrd
    unfold refsOf
    show ([] ++ (List.zipWith Slot.mk s.passed s.kept).map Slot.ref).Sublist
      (s.passed ++ s.todo.map Slot.ref)
    rw [hs, List.nil_append, List.map_nil, List.append_nil]
    exact zr _ _
  · intro sl hsl
    obtain ⟨i, h1, h2⟩ := hz sl hsl
    exact hA.kolder i _ _ h1 h2
  · intro sl hsl hf
    obtain ⟨i, h1, h2⟩ := hz sl hsl
    have := hI.keptLaunched _ (List.mem_of_getElem? h1)
    rw [hf] at this; cases this
  · intro sl hsl _
    obtain ⟨i, h1, h2⟩ := hz sl hsl
    rw [hlim]
    exact hA.klab i _ _ h1 h2
  · intro i h n h1; simp at h1
  · intro i h n h1; simp at h1
  · intro he
    have : p.early = true := he
    cases p <;> simp [Phase.late, Phase.early] at hl this
  · intro he
    have : p.early = true := he
    cases p <;> simp [Phase.late, Phase.early] at hl this

theorem LabAct.picked {s : St} (hA : LabAct s) (hph : s.phase = .pick)
    (hla : ∀ sl ∈ s.todo, sl.h.launched = true) (hk : s.kept = []) (hp : s.passed = []) {n : Node}
    (hn : bix s.trace n = s.trace.length) {tp : List Node} :
    LabAct { s with toProcess := tp,
                    todo := s.todo ++ [⟨n, { node := n, launched := false, start := 0 }⟩],
                    phase := .susp false } := by
  have hb : ∀ sl ∈ s.todo, bix s.trace sl.h.node < s.trace.length := fun sl hsl =>
    hA.begun sl.h (List.mem_append_right _ (List.mem_map_of_mem hsl)) (hla sl hsl)
  have hbr : ∀ sl ∈ s.todo, bix s.trace sl.ref < s.trace.length := by
    intro sl hsl
    have := hb sl hsl
    rcases hA.older sl hsl with h | h
    · rw [h]; exact this
    · omega
  have hlim : lim { s with toProcess := tp, todo := s.todo ++ [⟨n, { node := n, launched := false, start := 0 }⟩], phase := .susp false } = lim s := by
    unfold lim
    show resumes s.trace + (if true = true then 1 else 0) = _
    rw [hph]; rfl
  constructor
  · intro x hx hxl
    unfold handles at hx
    simp only [List.map_append, List.map_cons, List.map_nil] at hx
    rw [← List.append_assoc] at hx
    rcases List.mem_append.1 hx with hx | hx
    · exact hA.begun x hx hxl
    · rw [List.mem_singleton.1 hx] at hxl; cases hxl
  · unfold handles
    simp only [List.map_append, List.map_cons, List.map_nil]
    rw [← List.append_assoc, List.pairwise_append]
    refine ⟨hA.ord, List.pairwise_singleton _ _, fun a ha b hb' => ?_⟩
    rw [List.mem_singleton.1 hb']
    show bix s.trace a.node < bix s.trace n
    rw [hn]
    rw [hk, List.nil_append] at ha
    obtain ⟨sl, hsl, rfl⟩ := List.mem_map.1 ha
    exact hb sl hsl
  · unfold refsOf
    simp only [List.map_append, List.map_cons, List.map_nil]
    rw [← List.append_assoc, List.pairwise_append]
    refine ⟨hA.refOrd, List.pairwise_singleton _ _, fun a ha b hb' => ?_⟩
    rw [List.mem_singleton.1 hb']
    show bix s.trace a < bix s.trace n
    rw [hn]
    rw [hp, List.nil_append] at ha
    obtain ⟨sl, hsl, rfl⟩ := List.mem_map.1 ha
    exact hbr sl hsl
  · intro sl hsl
    rcases List.mem_append.1 hsl with hsl | hsl
    · exact hA.older sl hsl
    · rw [List.mem_singleton.1 hsl]; exact .inl rfl
  · intro sl hsl hf
    rcases List.mem_append.1 hsl with hsl | hsl
    · exact hA.own sl hsl hf
    · rw [List.mem_singleton.1 hsl]
  · intro sl hsl hf
    rcases List.mem_append.1 hsl with hsl | hsl
    · rw [hlim]; exact hA.lab sl hsl hf
    · rw [List.mem_singleton.1 hsl] at hf; cases hf
  · exact hA.kolder
  · exact hA.klab
  · intro he; cases he
  · intro he; cases he

theorem LabAct.resumed {s s' : St} (hA : LabAct s) {d : Bool} (hph : s.phase = .susp d)
    (hk : s.kept = []) (hp : s.passed = []) (ht : s'.trace = s.trace ++ [.resumed])
    (htd : s'.todo = s.todo) (hk' : s'.kept = s.kept) (hp' : s'.passed = s.passed)
    (hl : s'.phase.late = false) : LabAct s' := by
  have hev : ∀ er r m, Event.afterRun er r m ∉ [Event.resumed] := by simp
  have hh : handles s' = handles s := by unfold handles; rw [htd, hk']
  have hr : refsOf s' = refsOf s := by unfold refsOf; rw [htd, hp']
  have hlim : lim s' = lim s := by
    unfold lim
    rw [ht, hl, hph, resumes_append]
    rfl
  constructor
  · intro x hx hxl
    rw [hh] at hx
    have := hA.begun x hx hxl
    rw [ht, bix_begun this, List.length_append]
    omega
  · rw [hh, ht]; exact hA.ord.imp fun hab => bix_lt_append hab _
  · rw [hr, ht]; exact hA.refOrd.imp fun hab => bix_lt_append hab _
  · intro sl hsl
    rw [htd] at hsl
    rw [ht]; exact (hA.older sl hsl).append _
  · intro sl hsl
    rw [htd] at hsl
    exact hA.own sl hsl
  · intro sl hsl hsll
    rw [htd] at hsl
    rw [hlim, ht, Ow.append (hA.begun _ (List.mem_append_right _ (List.mem_map_of_mem hsl)) hsll)
      hev]
    exact hA.lab sl hsl hsll
  · intro i h n h1; rw [hk', hk] at h1; simp at h1
  · intro i h n h1; rw [hk', hk] at h1; simp at h1
  · intro _
    rw [hk', hk, hp', hp, ht]
    exact ⟨fun h => absurd h not_rep_resumed, fun h => absurd h (Nat.lt_irrefl _)⟩
  · intro _ sl _
    rw [ht]
    intro p er r m h1 h2
    exact absurd ⟨p, er, r, m, h1, h2⟩ not_rep_resumed

/-- the first element of `todo` begins; the job is handed to a thread -/
theorem LabAct.launch {C : Cfg} {s s' : St} (hI : Inv C s) (hA : LabAct s) {d : Bool}
    (hph : s.phase = .clean d) (hph' : s'.phase = .clean d) {sl : Slot} (hs : s.todo = [sl])
    (hl : sl.h.launched = false) (hn : bix s.trace sl.h.node = s.trace.length) {er : ExecRecord}
    (ht : s'.trace = s.trace ++ [.beforeRun er sl.h.node, .launch sl.h.node])
    (hk : s'.kept = s.kept) (hp : s'.passed = s.passed) {h' : Handle}
    (hhn : h'.node = sl.h.node) (hhl : h'.launched = true)
    (htd : s'.todo = [⟨sl.ref, h'⟩]) : LabAct s' := by
  have hslm : sl ∈ s.todo := by rw [hs]; exact List.mem_cons_self ..
  have hown := hA.own sl hslm hl
  have hearly : s.phase.early = true := by rw [hph]; rfl
  have hev : ∀ er' r m, Event.afterRun er' r m ∉
      [Event.beforeRun er sl.h.node, .launch sl.h.node] := by simp
  have h0 : resumes [Event.beforeRun er sl.h.node, .launch sl.h.node] = 0 := rfl
  have htk : resumes s'.trace = resumes s.trace := by rw [ht, resumes_append, h0]; rfl
  have hlim : lim s' = resumes s'.trace := by unfold lim; rw [hph']; rfl
  have hr : refsOf s' = refsOf s := by unfold refsOf; rw [htd, hp, hs]; rfl
  have hbx : bix s'.trace sl.h.node = s.trace.length := by
    rw [ht, bix_append, if_neg (by omega)]
    have : bix [Event.beforeRun er sl.h.node, .launch sl.h.node] sl.h.node = 0 := by
      unfold bix
      rw [List.findIdx_cons]
      have : Event.isBefore sl.h.node (.beforeRun er sl.h.node) = true := by simp [Event.isBefore]
      rw [this]; rfl
    omega
  have hkb : ∀ x ∈ s.kept, bix s.trace x.node < s.trace.length := fun x hx =>
    hA.begun x (List.mem_append_left _ hx) (hI.keptLaunched x hx)
  have hh : handles s' = s.kept ++ [h'] := by unfold handles; rw [htd, hk]; rfl
  constructor
  · intro x hx _
    rw [hh] at hx
    rw [ht, List.length_append]
    rcases List.mem_append.1 hx with hx | hx
    · rw [bix_begun (hkb x hx)]; have := hkb x hx; omega
    · rw [List.mem_singleton.1 hx, hhn, ← ht, hbx]
      show s.trace.length < s.trace.length + 2
      omega
  · rw [hh, List.pairwise_append]
    refine ⟨?_, List.pairwise_singleton _ _, fun a ha b hb => ?_⟩
    · have := hA.ord
      unfold handles at this
      rw [ht]
      exact (List.pairwise_append.1 this).1.imp fun hab => bix_lt_append hab _
    · rw [List.mem_singleton.1 hb, hhn, hbx, ht, bix_begun (hkb a ha)]
      exact hkb a ha
  · rw [hr, ht]; exact hA.refOrd.imp fun hab => bix_lt_append hab _
  · intro x hx
    rw [htd] at hx
    rw [List.mem_singleton.1 hx]
    exact .inl (by rw [hhn]; exact hown)
  · intro x hx hf
    rw [htd] at hx
    rw [List.mem_singleton.1 hx] at hf
    rw [hhl] at hf; cases hf
  · intro x hx _
    rw [htd] at hx
    rw [List.mem_singleton.1 hx, hlim, hhn]
    refine ⟨fun _ => ?_, fun _ => hown⟩
    rw [ht]
    exact not_ow_begin hn rfl
  · intro i h n h1 h2
    rw [hk] at h1; rw [hp] at h2
    rw [ht]; exact (hA.kolder i h n h1 h2).append _
  · intro i h n h1 h2
    rw [hk] at h1; rw [hp] at h2
    rw [htk, ht, Ow.append (hkb h (List.mem_of_getElem? h1)) hev]
    exact hA.klab i h n h1 h2
  · intro _
    rw [hk, hp, ht, Rep.append hev h0]
    exact hA.rep hearly
  · intro _ x hx
    rw [htd] at hx
    rw [List.mem_singleton.1 hx, hhn, ht]
    exact (hA.repT hearly sl hslm).append hev

theorem labInv_ctl {C : Cfg} (hwf : C.dag.WF) {s : St} (hI : Inv C s) (hT : TInv C s)
    (h : LabInv C s) (ok : Bool) : LabInv C (ctlStep C s ok) := by
  unfold ctlStep
  cases hp : s.phase with
  | created =>
    dsimp only
    rw [hI.createdInit hp]
    obtain ⟨h1, h2, h3, h4, h5⟩ := prologue_todo (C := C)
    have hno : ∀ er r m, Event.afterRun er r m ∉ (prologue C St.init).trace := by
      intro er r n hm
      rcases prologue_events hwf _ hm with h | h <;> cases h
    have hnr : ¬ Rep (prologue C St.init).trace := by
      rintro ⟨p, er, r, m, hm, _⟩
      exact hno er r m (List.mem_of_getElem? hm)
    refine ⟨?_, fun _ => ?_⟩
    · intro pre e post heq er r m hee
      subst hee
      exact absurd (by rw [heq]; simp) (hno er r m)
    · constructor
      · unfold handles; rw [h1, h2]; simp
      · unfold handles; rw [h1, h2]; simp
      · unfold refsOf; rw [h1, h3]; simp
      · rw [h1]; simp
      · rw [h1]; simp
      · rw [h1]; simp
      · rw [h2]; simp
      · rw [h2]; simp
      · intro _; rw [h2, h3]; exact ⟨fun h => absurd h hnr, fun h => absurd h (Nat.lt_irrefl _)⟩
      · rw [h1]; simp
  | loopTop =>
    dsimp only
    split
    · exact h.grow hI (evs := []) (by simp) (by simp) rfl rfl rfl rfl (by simp [hp, Phase.late])
        (by simp [hp, Phase.early]) (by simp [hp, Phase.active])
    · exact h.grow hI (evs := [.onTick s.erec]) rfl (by simp) rfl rfl rfl rfl
        (by simp [hp, Phase.late]) (by simp [hp, Phase.early]) (by simp [hp, Phase.active])
  | clean d =>
    have hact : s.phase.active = true := by rw [hp]; rfl
    have hA := h.act hact
    dsimp only
    unfold cleanStep
    split
    · rename_i ht
      refine ⟨h.seen, fun _ => hA.swept hI ht ?_⟩
      cases d <;> rfl
    · rename_i sl rest ht
      have hmem : sl.h ∈ handles s := Inv.slot_mem ht
      have hslm : sl ∈ s.todo := by rw [ht]; exact List.mem_cons_self ..
      split
      · rename_i hl
        have hl' : sl.h.launched = false := by simpa using hl
        have hlife0 : life sl.h.node s.trace = [] := hT.life_fresh (by rw [hp]; rfl) hmem hl'
        have hn := bix_fresh hlife0
        have hown := hA.own sl hslm hl'
        have hrest := hI.fresh_last ht hl'
        -- right after the start
        have fresh : ∀ (tr es : List Event), tr = s.trace ++ .beforeRun s.erec sl.h.node :: es →
            resumes es = 0 → bix tr sl.h.node < tr.length ∧
            (sl.ref = sl.h.node ↔ ¬ Ow tr sl.h.node (resumes tr)) := by
          intro tr es he h0
          refine ⟨?_, fun _ => ?_, fun _ => hown⟩
          · rw [he, bix_append, if_neg (by omega), List.length_append]
            have : bix (Event.beforeRun s.erec sl.h.node :: es) sl.h.node = 0 := by
              unfold bix
              rw [List.findIdx_cons]
              have : Event.isBefore sl.h.node (.beforeRun s.erec sl.h.node) = true := by
                simp [Event.isBefore]
              rw [this]; rfl
            rw [this, List.length_cons]
            omega
          · rw [he]; exact not_ow_begin hn h0
        unfold Joque.startRun
        dsimp only
        split
        · exact h.dead (evs := []) (by simp) (by simp) rfl
        · split
          · refine h.complete hI hp (d := d) ?_ ht (evs := [.beforeRun s.erec sl.h.node]) ?_ ?_ ?_ ?_
              ?_ ?_ ?_ ?_
            · exact hp
            · rfl
            · simp
            · rfl
            · rfl
            · rfl
            · rfl
            · exact (fresh _ [] rfl rfl).1
            · exact (fresh _ [] rfl rfl).2
          · split
            · refine h.complete hI hp (d := d) ?_ ht (evs := [.beforeRun s.erec sl.h.node]) ?_ ?_ ?_
                ?_ ?_ ?_ ?_ ?_
              · exact hp
              · rfl
              · simp
              · rfl
              · rfl
              · rfl
              · rfl
              · exact (fresh _ [] rfl rfl).1
              · exact (fresh _ [] rfl rfl).2
            · split
              · have htr : s.trace ++ [Event.beforeRun s.erec sl.h.node] ++
                    [Event.jobBegin sl.h.node true] ++ [Event.jobEnd sl.h.node] = s.trace ++
                    [Event.beforeRun s.erec sl.h.node, Event.jobBegin sl.h.node true,
                      Event.jobEnd sl.h.node] := by
                  simp only [List.append_assoc]; rfl
                refine h.collect hI hp (d := d) ?_ ht (evs := [.beforeRun s.erec sl.h.node,
                  .jobBegin sl.h.node true, .jobEnd sl.h.node]) ?_ ?_ ?_ ?_ ?_ ?_ ?_ ?_
                · exact hp
                · exact htr
                · simp
                · rfl
                · rfl
                · rfl
                · rfl
                · exact (fresh _ [.jobBegin sl.h.node true, .jobEnd sl.h.node] htr rfl).1
                · exact (fresh _ [.jobBegin sl.h.node true, .jobEnd sl.h.node] htr rfl).2
              · split
                · have htr : s.trace ++ [Event.beforeRun s.erec sl.h.node] ++
                      [Event.launch sl.h.node] = s.trace ++
                      [Event.beforeRun s.erec sl.h.node, Event.launch sl.h.node] := by
                    simp only [List.append_assoc]; rfl
                  subst hrest
                  refine ⟨?_, fun _ => hA.launch hI hp (d := d) (sl := sl) ?_ ht hl' hn
                    (er := s.erec) htr ?_ ?_ (h' := { sl.h with
                      launched := true, start := s.trace.length }) rfl rfl ?_⟩
                  · refine (?_ : Always LabelAt (s.trace ++ [Event.beforeRun s.erec sl.h.node] ++
                      [Event.launch sl.h.node]))
                    rw [htr]
                    exact seen_append h.seen (by simp)
                  · exact hp
                  · rfl
                  · rfl
                  · rfl
                · exact h.dead (evs := [.beforeRun s.erec sl.h.node]) rfl (by simp) rfl
      · rename_i hl
        have hl' : sl.h.launched = true := by simpa using hl
        split
        · rename_i hw
          have hlab := hA.lab sl hslm hl'
          have hlim : lim s = resumes s.trace := by unfold lim; rw [hp]; rfl
          rw [hlim] at hlab
          exact h.collect hI hp hp ht (evs := []) (by rw [List.append_nil]) (by simp) rfl rfl rfl
            rfl (hA.begun _ hmem hl') hlab
        · exact ⟨h.seen, fun _ => hA.kept_label hI hp ht hl'⟩
  | pick =>
    have hact : s.phase.active = true := by rw [hp]; rfl
    have hA := h.act hact
    have hsusp : LabInv C { s with phase := .susp false } :=
      h.grow hI (evs := []) (by simp) (by simp) rfl rfl rfl rfl (by simp [hp, Phase.late])
        (by simp [Phase.early]) (by simp [hp, Phase.active])
    dsimp only
    unfold pickStep
    split
    · exact hsusp
    · obtain ⟨r, hr, h4, _⟩ := findCandidate_spec (res := C.resources) (f := s.flags)
        (used := s.used) hwf hI.tp_nodes
      rw [hr]
      cases r with
      | none =>
        dsimp only
        split
        · exact h.dead (evs := []) (by simp) (by simp) rfl
        · exact hsusp
      | some n =>
        dsimp only
        obtain ⟨hk, hpa⟩ := hI.notClean hact (by rw [hp]; rfl)
        refine ⟨h.seen, fun _ => hA.picked hp (hI.pickLaunched hp) hk hpa ?_⟩
        obtain ⟨hE, hnn⟩ := h4 n rfl
        have hntp : n ∈ s.toProcess := by
          have := hI.part hact n hnn
          unfold allNodes at this
          simp only [List.mem_append] at this
          rcases this with (h1 | h1) | h1
          · obtain ⟨h, h2, rfl⟩ := List.mem_map.1 h1
            unfold handles at h2
            rw [hk, List.nil_append] at h2
            obtain ⟨sl, h3, rfl⟩ := List.mem_map.1 h2
            have := (hI.launched sl.h (List.mem_append_right _ (List.mem_map_of_mem h3))
              (hI.pickLaunched hp sl h3)).1
            rw [hE.notStarted] at this; cases this
          · have := (hI.doneIff n).2 h1
            rw [hE.notDone] at this; cases this
          · exact h1
        exact bix_fresh (hT.lifeTp n hntp)
  | susp d =>
    have hact : s.phase.active = true := by rw [hp]; rfl
    obtain ⟨hk, hpa⟩ := hI.notClean hact (by rw [hp]; rfl)
    refine ⟨seen_append h.seen (by simp), fun _ =>
      (h.act hact).resumed hp hk hpa rfl rfl rfl rfl ?_⟩
    cases d <;> rfl
  | drainTop =>
    dsimp only
    split
    · exact h.grow hI (evs := [.afterExecution s.erec]) rfl (by simp) rfl rfl rfl rfl
        (by simp [hp, Phase.late]) (by simp [Phase.early]) (by simp [hp, Phase.active])
    · exact h.grow hI (evs := []) (by simp) (by simp) rfl rfl rfl rfl (by simp [hp, Phase.late])
        (by simp [hp, Phase.early]) (by simp [hp, Phase.active])
  | unwinding e =>
    dsimp only
    split
    · exact h.dead (evs := []) (by simp) (by simp) rfl
    · exact h
  | destroying =>
    dsimp only
    split
    · exact h.dead (evs := []) (by simp) (by simp) rfl
    · exact h
  | finished => exact h.dead (evs := []) (by simp) (by simp) rfl
  | threw e => exact h.dead (evs := []) (by simp) (by simp) rfl
  | destroyed => exact h
  | ub => exact h
  | abort => exact h
  | outOfFuel => exact h

theorem labInv_step {C : Cfg} (hwf : C.dag.WF) {s : St} (hI : Inv C s) (hT : TInv C s)
    (h : LabInv C s) (m : Move) : LabInv C (step C s m) := by
  cases m with
  | ctl => exact labInv_ctl hwf hI hT h true
  | ctlFail => exact labInv_ctl hwf hI hT h false
  | fault f =>
    show LabInv C (faultStep C s f)
    rcases fault_cases C s f with h1 | ⟨pre, er, r, ref, post, _, _, h3⟩ |
        ⟨pre, e, post, h1, h2, _, hna, h3⟩ | ⟨_, _, h3⟩
    · rw [h1]; exact labInv_ctl hwf hI hT h true
    · rw [h3]
      exact ⟨(labInv_ctl hwf hI hT h true).seen, fun hc => by cases hc⟩
    · rw [h3]
      refine h.dead (evs := pre ++ [e]) rfl ?_ rfl
      intro er r n hm
      rcases List.mem_append.1 hm with hm | hm
      · by_cases hp : s.phase = .created
        · unfold ctlStep at h2
          rw [hp] at h2
          simp only at h2
          rw [hI.createdInit hp] at h2
          rcases prologue_events hwf (.afterRun er r n) (by rw [h2]; simp [hm]) with h | h
          · cases h
          · simp [proEv] at h
        · exact h1.no_after hp er r n hm
      · rw [List.mem_singleton] at hm
        exact hna er r n hm.symm
    · rw [h3]; exact h.dead (evs := []) (by simp) (by simp) rfl
  | begin n =>
    unfold step
    dsimp only
    split
    · exact h
    · split
      · exact h.grow hI (evs := [.jobBegin n false]) rfl (by simp) rfl rfl rfl rfl (fun _ => rfl)
          (fun h => h) (fun h => h)
      · exact h
  | finish n =>
    unfold step
    dsimp only
    split
    · exact h
    · split
      · exact h.grow hI (evs := [.jobEnd n]) rfl (by simp) rfl rfl rfl rfl (fun _ => rfl)
          (fun h => h) (fun h => h)
      · exact h
  | destroy =>
    show LabInv C (destroyStep s)
    unfold destroyStep
    split
    all_goals first
      | exact h
      | exact h.dead (evs := []) (by simp) (by simp) rfl

theorem labInv_exec {C : Cfg} (hwf : C.dag.WF) (ms : List Move) : LabInv C (exec C ms) := by
  have : ∀ ms : List Move, (Inv C (exec C ms) ∧ TInv C (exec C ms)) ∧ LabInv C (exec C ms) :=
    fun ms => foldl_inv (P := fun s => (Inv C s ∧ TInv C s) ∧ LabInv C s)
      (fun _ m h => ⟨⟨inv_step hwf h.1.1 m, h.1.2.step hwf h.1.1 m⟩,
        labInv_step hwf h.1.1 h.1.2 h.2 m⟩) ms St.init
      ⟨⟨inv_init C, tinv_init C⟩, ⟨always_nil, fun hc => by cases hc⟩⟩
  exact (this ms).2

end Joque
