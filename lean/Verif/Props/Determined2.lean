import Verif.Props.Determined
import Verif.Props.Applied

/-! # An execution leaves what executing the jobs one after the other leaves (C123) -/

namespace Joque

section
variable {K V : Type} {A : Footprint K} {J : Commands K V} {g : Dag}

/-- the job of `n` is executed alone, with the places as in `c` -/
noncomputable def alone (A : Footprint K) (J : Commands K V) (c : K → V) (n : Node) : K → V := by
  classical exact fun q => if A.writes n q then J.effect n c q else c q

/-- after executing jobs one after the other, a place holds what the last one that may write it left -/
theorem alone_last (c : K → V) (q : K) (P : List Node) :
    ((∀ m ∈ P, ¬ A.writes m q) ∧ P.foldl (alone A J) c q = c q) ∨
    ∃ P1 m P2, P = P1 ++ m :: P2 ∧ A.writes m q ∧ (∀ x ∈ P2, ¬ A.writes x q) ∧
      P.foldl (alone A J) c q = J.effect m (P1.foldl (alone A J) c) q := by
  induction P using List.reverseRecOn with
  | nil => exact .inl ⟨fun _ h => by simp at h, rfl⟩
  | append_singleton P m ih =>
    rw [List.foldl_append]
    by_cases hm : A.writes m q
    · exact .inr ⟨P, m, [], rfl, hm, fun _ h => by simp at h, by simp [alone, hm]⟩
    · have : List.foldl (alone A J) (List.foldl (alone A J) c P) [m] q
          = List.foldl (alone A J) c P q := by simp [alone, hm]
      rw [this]
      rcases ih with ⟨h1, h2⟩ | ⟨P1, x, P2, rfl, h2, h3, h4⟩
      · refine .inl ⟨fun x hx => ?_, h2⟩
        rcases List.mem_append.1 hx with h | h
        · exact h1 x h
        · rw [List.mem_singleton.1 h]; exact hm
      · refine .inr ⟨P1, x, P2 ++ [m], by simp, h2, fun y hy => ?_, h4⟩
        rcases List.mem_append.1 hy with h | h
        · exact h3 y h
        · rw [List.mem_singleton.1 h]; exact hm

/-- a list of the executed jobs in an order the dag allows -/
structure Serial (g : Dag) (tr : List Event) (l : List Node) : Prop where
  nodup : l.Nodup
  mem : ∀ n, n ∈ l ↔ JobBegan tr n
  order : l.Pairwise fun a b => ¬ Relation.TransGen (AfterEdge g) a b

/-- what holds for a position in the history and a number of jobs executed one after the other: the
same jobs that may write a place were executed -/
theorem serial_place {out : Node → JobOut} {tr : List Event} {cont : Nat → K → V}
    (W : Workspace A J out tr cont) (o : Orderly g tr) (hA : A.RaceFree g) (hJ : J.Within A)
    {q : K} {p : Nat} (hp : p ≤ tr.length)
    (hq : ∀ m i, A.writes m q → i < p → BeginsAt tr m i →
      ∃ e, i < e ∧ e < p ∧ tr[e]? = some (.jobEnd m)) {P : List Node}
    (hord : P.Pairwise fun a b => ¬ Relation.TransGen (AfterEdge g) a b)
    (hw : ∀ m, A.writes m q → (m ∈ P ↔ ∃ i < p, BeginsAt tr m i))
    (hc : ∀ P1 m P2, P = P1 ++ m :: P2 → A.writes m q → ∀ i, BeginsAt tr m i →
      ∀ x, A.Touches m x → cont i x = P1.foldl (alone A J) (cont 0) x) :
    cont p q = P.foldl (alone A J) (cont 0) q := by
  rcases W.last o hA hp hq with ⟨h1, e1⟩ | ⟨m, i, l, w, b, e1, u⟩ <;>
    rcases alone_last (A := A) (J := J) (cont 0) q P with ⟨h2, e2⟩ | ⟨P1, m2, P2, hP, w2, h2, e2⟩
  · rw [e1, e2]
  · obtain ⟨i, hi, hb⟩ := (hw m2 w2).1 (by rw [hP]; simp)
    exact absurd ⟨w2, i, hi, hb⟩ (h1 m2)
  · exact absurd w (h2 m ((hw m w).2 ⟨i, l, b⟩))
  · by_cases hm : m = m2
    · subst hm
      rw [e1, e2]
      exact hJ.effect m _ _ (hc P1 m P2 hP w i b) q w
    · exfalso
      obtain ⟨i2, hi2, hb2⟩ := (hw m2 w2).1 (by rw [hP]; simp)
      have t := u m2 ⟨w2, i2, hi2, hb2⟩ (Ne.symm hm)
      have hmP := (hw m w).2 ⟨i, l, b⟩
      rw [hP] at hmP hord
      rcases List.mem_append.1 hmP with h | h
      · exact (List.pairwise_append.1 hord).2.2 m h m2 (by simp) t
      · rcases List.mem_cons.1 h with h | h
        · exact hm h
        · exact h2 m h w

/-- in an orderly history every job finds what it would find after executing the jobs before it one
after the other -/
theorem serial_found {out : Node → JobOut} {tr : List Event} {cont : Nat → K → V}
    (W : Workspace A J out tr cont) (o : Orderly g tr) (hA : A.RaceFree g) (hJ : J.Within A)
    {l : List Node} (hl : Serial g tr l) :
    ∀ k P n R, P.length < k → l = P ++ n :: R → ∀ i, BeginsAt tr n i →
      ∀ q, A.Touches n q → cont i q = P.foldl (alone A J) (cont 0) q := by
  intro k
  induction k with
  | zero => intro P n R h; omega
  | succ k ih =>
    intro P n R hk hP i hi q hq
    have hnd := hl.nodup
    rw [hP] at hnd
    have hord := hl.order
    rw [hP] at hord
    -- jobs that may write and begin before are those the dag orders before
    have hbefore : ∀ m j, A.writes m q → BeginsAt tr m j → j < i →
        n ≠ m ∧ Relation.TransGen (AfterEdge g) n m := by
      intro m j hm hj hji
      have hne : n ≠ m := by
        rintro rfl
        have := o.once hi hj
        omega
      refine ⟨hne, ?_⟩
      rcases hA n (o.node hi) m (o.node hj) hne q hq hm with h | h
      · exact h
      · obtain ⟨e, h1, h2, _⟩ := o.order h hi hj
        omega
    have hlen : i ≤ tr.length := by
      obtain ⟨b, hb⟩ := hi
      exact Nat.le_of_lt (List.getElem?_eq_some_iff.1 hb).1
    refine serial_place W o hA hJ hlen ?_ (List.pairwise_append.1 hord).1 ?_ ?_
    · intro m j hm hji hj
      exact o.order (hbefore m j hm hj hji).2 hj hi
    · intro m hm
      constructor
      · intro hmP
        obtain ⟨j, hj⟩ := began_beginsAt ((hl.mem m).1 (by rw [hP]; simp [hmP]))
        have hne : n ≠ m := by
          rintro rfl
          exact (List.nodup_append.1 hnd).2.2 n hmP n (by simp) rfl
        rcases hA n (o.node hi) m (o.node hj) hne q hq hm with h | h
        · obtain ⟨e, h1, h2, _⟩ := o.order h hj hi
          exact ⟨j, by omega, hj⟩
        · exact absurd h ((List.pairwise_append.1 hord).2.2 m hmP n (by simp))
      · rintro ⟨j, hji, hj⟩
        obtain ⟨hne, t⟩ := hbefore m j hm hj hji
        have hml := (hl.mem m).2 (beginsAt_began hj)
        rw [hP] at hml
        rcases List.mem_append.1 hml with h | h
        · exact h
        · rcases List.mem_cons.1 h with h | h
          · exact absurd h.symm hne
          · exact absurd t ((List.pairwise_cons.1 (List.pairwise_append.1 hord).2.1).1 m h)
    · intro P1 m P2 hP1 _ j hj x hx
      refine ih P1 m (P2 ++ n :: R) ?_ (by rw [hP, hP1]; simp) j hj x hx
      rw [hP1] at hk
      simp at hk
      omega

end

/-- **C123**, what the places hold in the end, and how every job ended, is what executing the jobs one
after the other gives, in any order the dag allows: an execution with several threads is as good as one
without. -/
theorem C123_serial {K V : Type} (A : Footprint K) (J : Commands K V) (C : Cfg) (hwf : C.dag.WF)
    (hA : A.RaceFree C.dag) (hJ : J.Within A) (ms : List Move)
    (hfin : (exec C ms).phase = .finished) (cont : Nat → K → V)
    (W : Workspace A J C.outcome (exec C ms).trace cont) (l : List Node)
    (hl : Serial C.dag (exec C ms).trace l) :
    (∀ q, cont (exec C ms).trace.length q = l.foldl (alone A J) (cont 0) q) ∧
    ∀ P n R, l = P ++ n :: R → C.outcome n = J.outcome n (P.foldl (alone A J) (cont 0)) := by
  have o := orderly_finished hwf ms hfin
  have hfound := serial_found W o hA hJ hl
  refine ⟨fun q => ?_, fun P n R hP => ?_⟩
  · refine serial_place W o hA hJ (Nat.le_refl _) ?_ hl.order ?_ ?_
    · intro m i _ _ hb
      obtain ⟨e, h1, h2⟩ := o.ends hb
      exact ⟨e, h1, (List.getElem?_eq_some_iff.1 h2).1, h2⟩
    · intro m _
      rw [hl.mem]
      refine ⟨fun h => ?_, fun ⟨i, _, h⟩ => beginsAt_began h⟩
      obtain ⟨i, b, hb⟩ := began_beginsAt h
      exact ⟨i, (List.getElem?_eq_some_iff.1 hb).1, b, hb⟩
    · intro P1 m P2 hP _ i hi x hx
      exact hfound _ P1 m P2 (Nat.lt_succ_self _) hP i hi x hx
  · obtain ⟨i, hi⟩ := began_beginsAt ((hl.mem n).1 (by rw [hP]; simp))
    have hf := hfound _ P n R (Nat.lt_succ_self _) hP i hi
    obtain ⟨e, _, he⟩ := o.ends hi
    obtain ⟨b, hb⟩ := hi
    rw [(W.result e i n b hb he).1]
    exact hJ.outcome n _ _ hf

end Joque
