import Verif.Proof.InsertSet

namespace Joque

/-- selected, in terms of the map `tmp` -/
def Sel (F : BFix) (filter : Str) (t : TaskId) : Prop :=
  ∃ s n, mget F.tmp0 s = some n ∧ filter <:+: n ∧ Relation.ReflTransGen (DependsOn F.E.store) s t

structure LoopInv (F : BFix) (filter : Str) (s : BSt) : Prop where
  inv : BInv F s
  complete : ∀ u, (mget s.index u).isSome → Complete F s u
  sel : ∀ u, (mget s.index u).isSome → Sel F filter u

theorem complete_ext {F : BFix} {s s' : BSt} (hI : BInv F s) (hX : BExt s s')
    (hold : ∀ a ∈ s.dag.nodes, s'.dag.outEdges a = s.dag.outEdges a) {u : TaskId}
    (h : Complete F s u) : Complete F s' u := by
  obtain ⟨x, h1, h2, h3⟩ := h
  have hxn : x ∈ s.dag.nodes := by
    rw [hI.nodes, List.mem_append]
    exact .inl (List.mem_map.2 ⟨_, mget_some_mem h1, rfl⟩)
  refine ⟨x, hX.index u x h1, fun y hy => ?_, ?_⟩
  · obtain ⟨z, hz⟩ := Option.isSome_iff_exists.1 (h2 y hy)
    rw [hX.index y z hz]; rfl
  · rw [hold x hxn, h3]
    apply depEdges_congr
    intro y hy
    obtain ⟨z, hz⟩ := Option.isSome_iff_exists.1 (h2 y hy)
    rw [hX.index y z hz, hz]

theorem tmpLoop_spec {F : BFix} (hF : F.OK) {fuel : Nat} (hfuel : F.univ.length < fuel)
    (filter : Str) : ∀ (visit : List TaskId) (s : BSt), LoopInv F filter s →
    match tmpLoop F.E fuel filter visit s with
    | .ok s' => LoopInv F filter s' ∧ BExt s s' ∧
        ∀ t ∈ visit, ∀ n, mget F.tmp0 t = some n → filter <:+: n → (mget s'.index t).isSome
    | .ub => Unsafe F
    | .outOfFuel => False := by
  intro visit
  induction visit with
  | nil => intro s h; exact ⟨h, BExt.refl s, by simp⟩
  | cons t visit ih =>
    intro s h
    simp only [tmpLoop]
    cases ht : mget s.tmp t with
    | none =>
      simp only
      have := ih s h
      revert this
      split
      · rintro ⟨a, b, c⟩
        refine ⟨a, b, fun x hx n hn hf => ?_⟩
        rcases List.mem_cons.1 hx with rfl | hx
        · rw [h.inv.tmpOld _ _ hn] at ht; cases ht
        · exact c x hx n hn hf
      · exact id
      · exact id
    | some name =>
      simp only
      by_cases hc : containsStr name filter = true
      · rw [if_pos hc]
        have hfm := (containsStr_iff _ _).1 hc
        by_cases hix : (mget s.index t).isSome
        · -- already there
          obtain ⟨a0, ha0⟩ := Option.isSome_iff_exists.1 hix
          have hid : bdfs F.E fuel t s = .ok s := by
            cases fuel with
            | zero => omega
            | succ k => simp [bdfs, ha0]
          rw [hid]
          simp only
          have := ih s h
          revert this
          split
          · rintro ⟨a, b, c⟩
            refine ⟨a, b, fun x hx n hn hf => ?_⟩
            rcases List.mem_cons.1 hx with rfl | hx
            · rw [b.index _ _ ha0]; rfl
            · exact c x hx n hn hf
          · exact id
          · exact id
        · have hin : t ∈ F.tmp0.map Prod.fst := by
            rcases h.inv.tmpNew t (mget_isSome.1 (by rw [ht]; rfl)) with h1 | ⟨h1, _⟩
            · exact h1
            · rw [← mget_isSome] at h1; exact absurd h1 hix
          obtain ⟨n0, hn0⟩ := Option.isSome_iff_exists.1 (mget_isSome.2 hin)
          have hnn : n0 = name := by
            have := h.inv.tmpOld t n0 hn0; rw [ht] at this; cases this; rfl
          subst hnn
          have hsp := bdfs_spec hF fuel t s (hF.keys t hin) h.inv
            (Nat.lt_of_le_of_lt (List.length_filter_le _ _) hfuel)
          revert hsp
          cases bdfs F.E fuel t s with
          | ub => exact id
          | outOfFuel => exact id
          | ok s1 =>
            intro hP
            have hP : BPost F t s s1 := hP
            simp only
            have hL : LoopInv F filter s1 := by
              refine ⟨hP.inv, fun u hu => ?_, fun u hu => ?_⟩
              · by_cases h1 : (mget s.index u).isSome
                · exact complete_ext h.inv hP.ext hP.old (h.complete u h1)
                · exact hP.complete u hu (by simpa using h1)
              · by_cases h1 : (mget s.index u).isSome
                · exact h.sel u h1
                · exact ⟨t, n0, hn0, hfm, hP.reach u hu (by simpa using h1)⟩
            have := ih s1 hL
            revert this
            split
            · rintro ⟨a, b, c⟩
              refine ⟨a, hP.ext.trans b, fun x hx n hn hf => ?_⟩
              rcases List.mem_cons.1 hx with rfl | hx
              · obtain ⟨z, hz⟩ := Option.isSome_iff_exists.1 hP.found
                rw [b.index _ _ hz]; rfl
              · exact c x hx n hn hf
            · exact id
            · exact id
      · rw [if_neg hc]
        have := ih s h
        revert this
        split
        · rintro ⟨a, b, c⟩
          refine ⟨a, b, fun x hx n hn hf => ?_⟩
          rcases List.mem_cons.1 hx with rfl | hx
          · rw [h.inv.tmpOld _ _ hn] at ht; cases ht
            exact absurd ((containsStr_iff _ _).2 hf) hc
          · exact c x hx n hn hf
        · exact id
        · exact id

/-- edges from `a` to those of `l` that have nodes, newest first -/
def softEdges (lk : TaskId → Option Node) (a : Node) (k : EKind) (l : List TaskId) : List Edge :=
  l.reverse.filterMap (fun d => (lk d).map (fun b => ⟨a, b, k⟩))

theorem addSoft_spec {F : BFix} {t : TaskId} {n : Node} (k : EKind) :
    ∀ (l : List TaskId) (s : BSt), BInv F s → mget s.index t = some n →
    BInv F (addSoft s n k l) ∧ (addSoft s n k l).index = s.index ∧
    ∀ x, (addSoft s n k l).dag.outEdges x =
      if n = x then softEdges (mget s.index) n k l ++ s.dag.outEdges x else s.dag.outEdges x := by
  intro l
  induction l with
  | nil => intro s h _; exact ⟨h, rfl, fun x => by simp [addSoft, softEdges]⟩
  | cons d l ih =>
    intro s h hn
    simp only [addSoft]
    cases hd : mget s.index d with
    | none =>
      simp only
      obtain ⟨a, b, c⟩ := ih s h hn
      refine ⟨a, b, fun x => ?_⟩
      rw [c x]
      simp [softEdges, hd]
    | some b =>
      simp only
      obtain ⟨a, b', c⟩ := ih _ (addEdge_inv h hn hd k) hn
      refine ⟨a, b', fun x => ?_⟩
      rw [c x]
      simp only [outEdges_addEdge]
      by_cases hx : n = x
      · simp [hx, softEdges, hd]
      · simp [hx]

theorem indexLoop_spec {F : BFix} : ∀ (l : List TaskId) (s : BSt), BInv F s → l.Nodup →
    BInv F (indexLoop F.E l s) ∧ (indexLoop F.E l s).index = s.index ∧
    ∀ t a, mget s.index t = some a → (indexLoop F.E l s).dag.outEdges a =
      if t ∈ l then
        softEdges (mget s.index) a .invalidatedBy (F.E.store t).invalidatedBy ++
        (softEdges (mget s.index) a .after (F.E.store t).runAfter ++ s.dag.outEdges a)
      else s.dag.outEdges a := by
  intro l
  induction l with
  | nil => intro s h _; exact ⟨h, rfl, fun t a _ => by simp [indexLoop]⟩
  | cons u l ih =>
    intro s h hnd
    rw [List.nodup_cons] at hnd
    simp only [indexLoop]
    cases hu : mget s.index u with
    | none =>
      simp only
      obtain ⟨a, b, c⟩ := ih s h hnd.2
      refine ⟨a, b, fun t x hx => ?_⟩
      rw [c t x hx]
      have : t ≠ u := by rintro rfl; rw [hu] at hx; cases hx
      simp [this]
    | some n =>
      simp only
      obtain ⟨a1, b1, c1⟩ := addSoft_spec (F := F) .after (F.E.store u).runAfter s h hu
      have hu1 := hu
      rw [← b1] at hu1
      obtain ⟨a2, b2, c2⟩ := addSoft_spec (F := F) .invalidatedBy (F.E.store u).invalidatedBy _ a1 hu1
      obtain ⟨a3, b3, c3⟩ := ih _ a2 hnd.2
      refine ⟨a3, b3.trans (b2.trans b1), fun t x hx => ?_⟩
      have hx1 := hx
      rw [← b1, ← b2] at hx1
      rw [c3 t x hx1, c2 x, c1 x, b2, b1]
      by_cases htu : t = u
      · subst htu
        rw [hu] at hx; cases hx
        simp [hnd.1]
      · have hnx : n ≠ x := by
          rintro rfl
          have e1 := (h.data _ (mget_some_mem hu)).1
          have e2 := (h.data _ (mget_some_mem hx)).1
          exact htu (e2.symm.trans e1)
        simp [htu, hnx]

/-- everything about the result -/
structure Built (F : BFix) (filter : Str) (s : BSt) : Prop where
  inv : BInv F s
  sel : ∀ t, (mget s.index t).isSome ↔ Sel F filter t
  out : ∀ t a, mget s.index t = some a → s.dag.outEdges a =
    softEdges (mget s.index) a .invalidatedBy (F.E.store t).invalidatedBy ++
    (softEdges (mget s.index) a .after (F.E.store t).runAfter ++
      depEdges (mget s.index) a (F.E.store t).dependsOn)

theorem insertSet_spec {F : BFix} (hF : F.OK) {fuel : Nat} (hfuel : F.univ.length < fuel)
    (ts : TaskSet) (htmp : F.tmp0 = (forEachTask ts).map (fun e => (e.2, e.1)))
    (filter : Str) (visit : List TaskId) (order : List TaskId → List TaskId)
    (hvisit : ∀ t ∈ F.tmp0.map Prod.fst, t ∈ visit) (horder : ∀ l, (order l).Perm l) :
    match insertSet F.E fuel F.g0 ts filter visit order with
    | .ok s => Built F filter s
    | .ub => Unsafe F
    | .outOfFuel => False := by
  have hI0 : LoopInv F filter { dag := F.g0, tmp := F.tmp0, index := [] } := by
    refine ⟨⟨?_, ?_, ?_, ?_, ?_, ?_, ?_, ?_, ?_, ?_, ?_⟩, ?_, ?_⟩ <;> try simp [mget]
  have h1 := tmpLoop_spec hF hfuel filter visit _ hI0
  unfold insertSet
  rw [← htmp]
  simp only
  revert h1
  cases tmpLoop F.E fuel filter visit { dag := F.g0, tmp := F.tmp0, index := [] } with
  | ub => exact id
  | outOfFuel => exact id
  | ok s =>
    rintro ⟨hL, hX, hv⟩
    simp only
    have hp := horder (s.index.map Prod.fst)
    have hnd : (order (s.index.map Prod.fst)).Nodup := hp.nodup_iff.2 hL.inv.keysNodup
    obtain ⟨a, b, c⟩ := indexLoop_spec (F := F) _ s hL.inv hnd
    refine ⟨a, ?_, ?_⟩
    · intro t
      rw [b]
      refine ⟨hL.sel t, ?_⟩
      rintro ⟨u, n, hn, hf, hr⟩
      have hu := hv u (hvisit u (mget_isSome.1 (by rw [hn]; rfl))) n hn hf
      clear hn hf
      induction hr with
      | refl => exact hu
      | tail _ hd ih =>
        obtain ⟨_, _, h2, _⟩ := hL.complete _ ih
        exact h2 _ hd
    · intro t x hx
      rw [b] at hx ⊢
      rw [c t x hx, if_pos (hp.mem_iff.2 (mget_isSome.1 (by rw [hx]; rfl)))]
      obtain ⟨y, h1, _, h3⟩ := hL.complete t (by rw [hx]; rfl)
      rw [hx] at h1; cases h1
      rw [h3]

end Joque
