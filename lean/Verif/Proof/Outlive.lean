import Verif.Proof.RefInv
import Verif.Spec.Outlive

/-! # When the label of a `run_coro` object is right -/

namespace Joque

def Event.isBefore (x : Node) : Event → Bool
  | .beforeRun _ m => m == x
  | _ => false

/-- where `x` began; the length of the history if it did not -/
def bix (tr : List Event) (x : Node) : Nat := tr.findIdx (Event.isBefore x)

/-- `Outlives`, in terms of `bix`, with the limit as a parameter -/
def Ow (tr : List Event) (x : Node) (k : Nat) : Prop :=
  ∃ (p : Nat) (er : ExecRecord) (r : RunRecord) (m : Node), tr[p]? = some (.afterRun er r m) ∧
    bix tr r.node < bix tr x ∧ resumes (tr.take (bix tr x)) ≤ resumes (tr.take p) ∧
    resumes (tr.take p) < k

/-- something was reported in the present resumption -/
def Rep (tr : List Event) : Prop :=
  ∃ (p : Nat) (er : ExecRecord) (r : RunRecord) (m : Node), tr[p]? = some (.afterRun er r m) ∧
    resumes (tr.take p) = resumes tr

theorem bix_le (tr : List Event) (x : Node) : bix tr x ≤ tr.length := List.findIdx_le_length

theorem bix_append (tr es : List Event) (x : Node) :
    bix (tr ++ es) x = if bix tr x < tr.length then bix tr x else tr.length + bix es x := by
  unfold bix
  rw [List.findIdx_append]
  split
  · rfl
  · exact Nat.add_comm _ _

theorem bix_begun {tr : List Event} {x : Node} (h : bix tr x < tr.length) (es : List Event) :
    bix (tr ++ es) x = bix tr x := by rw [bix_append, if_pos h]

theorem bix_lt_append {tr : List Event} {a b : Node} (h : bix tr a < bix tr b) (es : List Event) :
    bix (tr ++ es) a < bix (tr ++ es) b := by
  have h1 : bix tr a < tr.length := Nat.lt_of_lt_of_le h (bix_le _ _)
  rw [bix_begun h1, bix_append]
  split
  · exact h
  · omega

theorem bix_lt_of_append {tr es : List Event} {a b : Node} (hb : bix tr b < tr.length) :
    bix (tr ++ es) a < bix (tr ++ es) b ↔ bix tr a < bix tr b := by
  rw [bix_begun hb, bix_append]
  split
  · rfl
  · omega

theorem resumes_append (a b : List Event) : resumes (a ++ b) = resumes a + resumes b := by
  unfold resumes; rw [List.countP_append]

theorem resumes_take_le (tr : List Event) (i : Nat) : resumes (tr.take i) ≤ resumes tr := by
  unfold resumes; exact (List.take_sublist i tr).countP_le

theorem resumes_take_mono (tr : List Event) {i j : Nat} (h : i ≤ j) :
    resumes (tr.take i) ≤ resumes (tr.take j) := by
  have : tr.take i = (tr.take j).take i := by rw [List.take_take, Nat.min_eq_left h]
  rw [this]; exact resumes_take_le _ _

/-- nothing about starts and reports -/
theorem Ow.append {tr es : List Event} {x : Node} {k : Nat} (hx : bix tr x < tr.length)
    (he : ∀ er r m, Event.afterRun er r m ∉ es) : Ow (tr ++ es) x k ↔ Ow tr x k := by
  have hxe := bix_begun hx es
  constructor
  · rintro ⟨p, er, r, m, h1, h2, h3, h4⟩
    have hp : p < tr.length := by
      by_contra hc
      rw [List.getElem?_append_right (by omega)] at h1
      exact he er r m (List.mem_of_getElem? h1)
    rw [List.getElem?_append_left hp] at h1
    rw [hxe, List.take_append_of_le_length (by omega),
      List.take_append_of_le_length (by omega)] at h3
    rw [List.take_append_of_le_length (by omega)] at h4
    exact ⟨p, er, r, m, h1, (bix_lt_of_append hx).1 h2, h3, h4⟩
  · rintro ⟨p, er, r, m, h1, h2, h3, h4⟩
    have hp : p < tr.length := (List.getElem?_eq_some_iff.1 h1).1
    refine ⟨p, er, r, m, by rw [List.getElem?_append_left hp]; exact h1, (bix_lt_of_append hx).2 h2,
      ?_, ?_⟩
    · rw [hxe, List.take_append_of_le_length (by omega), List.take_append_of_le_length (by omega)]
      exact h3
    · rw [List.take_append_of_le_length (by omega)]; exact h4

/-- a report -/
theorem Ow.report {tr : List Event} {x : Node} {k : Nat} (hx : bix tr x < tr.length)
    {er : ExecRecord} {r : RunRecord} {m : Node} :
    Ow (tr ++ [.afterRun er r m]) x k ↔ Ow tr x k ∨ (bix tr r.node < bix tr x ∧ resumes tr < k) := by
  have hxe := bix_begun hx [.afterRun er r m]
  constructor
  · rintro ⟨p, er', r', m', h1, h2, h3, h4⟩
    by_cases hp : p < tr.length
    · left
      rw [List.getElem?_append_left hp] at h1
      rw [hxe, List.take_append_of_le_length (by omega),
        List.take_append_of_le_length (by omega)] at h3
      rw [List.take_append_of_le_length (by omega)] at h4
      exact ⟨p, er', r', m', h1, (bix_lt_of_append hx).1 h2, h3, h4⟩
    · right
      rw [List.getElem?_append_right (by omega)] at h1
      have hp0 : p - tr.length = 0 := by
        have := (List.getElem?_eq_some_iff.1 h1).1
        rw [List.length_singleton] at this
        omega
      rw [hp0] at h1
      simp only [List.getElem?_cons_zero, Option.some.injEq, Event.afterRun.injEq] at h1
      obtain ⟨_, rfl, _⟩ := h1
      have hpe : p = tr.length := by omega
      rw [hpe, List.take_append_of_le_length (Nat.le_refl _), List.take_length] at h4
      exact ⟨(bix_lt_of_append hx).1 h2, h4⟩
  · rintro (⟨p, er', r', m', h1, h2, h3, h4⟩ | ⟨h1, h2⟩)
    · have hp : p < tr.length := (List.getElem?_eq_some_iff.1 h1).1
      refine ⟨p, er', r', m', by rw [List.getElem?_append_left hp]; exact h1,
        (bix_lt_of_append hx).2 h2, ?_, ?_⟩
      · rw [hxe, List.take_append_of_le_length (by omega), List.take_append_of_le_length (by omega)]
        exact h3
      · rw [List.take_append_of_le_length (by omega)]; exact h4
    · refine ⟨tr.length, er, r, m, ?_, (bix_lt_of_append hx).2 h1, ?_, ?_⟩
      · rw [List.getElem?_append_right (Nat.le_refl _), Nat.sub_self]; rfl
      · rw [hxe, List.take_append_of_le_length (by omega),
          List.take_append_of_le_length (Nat.le_refl _), List.take_length]
        exact resumes_take_le _ _
      · rw [List.take_append_of_le_length (Nat.le_refl _), List.take_length]; exact h2

theorem Rep.append {tr es : List Event} (he : ∀ er r m, Event.afterRun er r m ∉ es)
    (ht : resumes es = 0) : Rep (tr ++ es) ↔ Rep tr := by
  constructor
  · rintro ⟨p, er, r, m, h1, h2⟩
    have hp : p < tr.length := by
      by_contra hc
      rw [List.getElem?_append_right (by omega)] at h1
      exact he er r m (List.mem_of_getElem? h1)
    rw [List.getElem?_append_left hp] at h1
    rw [List.take_append_of_le_length (by omega), resumes_append, ht] at h2
    exact ⟨p, er, r, m, h1, h2⟩
  · rintro ⟨p, er, r, m, h1, h2⟩
    have hp : p < tr.length := (List.getElem?_eq_some_iff.1 h1).1
    refine ⟨p, er, r, m, by rw [List.getElem?_append_left hp]; exact h1, ?_⟩
    rw [List.take_append_of_le_length (by omega), resumes_append, ht]; exact h2

theorem not_rep_resumed {tr : List Event} : ¬ Rep (tr ++ [.resumed]) := by
  rintro ⟨p, er, r, m, h1, h2⟩
  have hp : p < tr.length := by
    by_contra hc
    rw [List.getElem?_append_right (by omega)] at h1
    have := List.mem_of_getElem? h1
    simp at this
  rw [List.take_append_of_le_length (by omega), resumes_append] at h2
  have := resumes_take_le tr p
  have h3 : resumes [Event.resumed] = 1 := rfl
  omega

theorem rep_report {tr : List Event} {er : ExecRecord} {r : RunRecord} {m : Node} :
    Rep (tr ++ [.afterRun er r m]) := by
  refine ⟨tr.length, er, r, m, ?_, ?_⟩
  · rw [List.getElem?_append_right (Nat.le_refl _), Nat.sub_self]; rfl
  · rw [List.take_append_of_le_length (Nat.le_refl _), List.take_length, resumes_append]; rfl

/-- all reports of the present resumption are about tasks that began before `n` -/
def RepBefore (tr : List Event) (n : Node) : Prop :=
  ∀ (p : Nat) (er : ExecRecord) (r : RunRecord) (m : Node), tr[p]? = some (.afterRun er r m) →
    resumes (tr.take p) = resumes tr → bix tr r.node < bix tr n

theorem RepBefore.append {tr es : List Event} {n : Node} (h : RepBefore tr n)
    (he : ∀ er r m, Event.afterRun er r m ∉ es) : RepBefore (tr ++ es) n := by
  intro p er r m h1 h2
  have hp : p < tr.length := by
    by_contra hc
    rw [List.getElem?_append_right (by omega)] at h1
    exact he er r m (List.mem_of_getElem? h1)
  rw [List.getElem?_append_left hp] at h1
  rw [List.take_append_of_le_length (by omega), resumes_append] at h2
  have := resumes_take_le tr p
  exact bix_lt_append (h p er r m h1 (by omega)) es

theorem RepBefore.report {tr : List Event} {n : Node} (h : RepBefore tr n)
    {er : ExecRecord} {r : RunRecord} {m : Node} (hr : bix tr r.node < bix tr n) :
    RepBefore (tr ++ [.afterRun er r m]) n := by
  intro p er' r' m' h1 h2
  by_cases hp : p < tr.length
  · rw [List.getElem?_append_left hp] at h1
    rw [List.take_append_of_le_length (by omega), resumes_append] at h2
    have := resumes_take_le tr p
    exact bix_lt_append (h p er' r' m' h1 (by omega)) _
  · rw [List.getElem?_append_right (by omega)] at h1
    have hp0 : p - tr.length = 0 := by
      have := (List.getElem?_eq_some_iff.1 h1).1
      rw [List.length_singleton] at this
      omega
    rw [hp0] at h1
    simp only [List.getElem?_cons_zero, Option.some.injEq, Event.afterRun.injEq] at h1
    obtain ⟨_, rfl, _⟩ := h1
    exact bix_lt_append hr _

/-- the limit, one further -/
theorem Ow.succ {tr : List Event} {x : Node} (hb : RepBefore tr x) :
    Ow tr x (resumes tr + 1) ↔ Ow tr x (resumes tr) ∨ Rep tr := by
  constructor
  · rintro ⟨p, er, r, m, h1, h2, h3, h4⟩
    by_cases hp : resumes (tr.take p) = resumes tr
    · exact .inr ⟨p, er, r, m, h1, hp⟩
    · exact .inl ⟨p, er, r, m, h1, h2, h3, by omega⟩
  · rintro (⟨p, er, r, m, h1, h2, h3, h4⟩ | ⟨p, er, r, m, h1, h2⟩)
    · exact ⟨p, er, r, m, h1, h2, h3, by omega⟩
    · refine ⟨p, er, r, m, h1, hb p er r m h1 h2, ?_, by omega⟩
      rw [h2]; exact resumes_take_le _ _

/-- a task that just began outlived nothing -/
theorem not_ow_begin {tr es : List Event} {x : Node} (h : bix tr x = tr.length) {er : ExecRecord}
    (he : resumes es = 0) :
    ¬ Ow (tr ++ .beforeRun er x :: es) x (resumes (tr ++ .beforeRun er x :: es)) := by
  rintro ⟨p, er', r, m, _, _, h3, h4⟩
  have hb : bix (tr ++ .beforeRun er x :: es) x = tr.length := by
    rw [bix_append, if_neg (by omega)]
    have : bix (.beforeRun er x :: es) x = 0 := by
      unfold bix
      rw [List.findIdx_cons]
      have : Event.isBefore x (.beforeRun er x) = true := by simp [Event.isBefore]
      rw [this]; rfl
    omega
  rw [hb, List.take_append_of_le_length (Nat.le_refl _), List.take_length] at h3
  have h5 : resumes (tr ++ .beforeRun er x :: es) = resumes tr := by
    rw [resumes_append]
    have : resumes (.beforeRun er x :: es) = resumes es := by
      unfold resumes; rw [List.countP_cons]; simp [Event.isResumed]
    omega
  omega

theorem bix_fresh {tr : List Event} {x : Node} (h : life x tr = []) : bix tr x = tr.length := by
  unfold bix
  rw [List.findIdx_eq_length]
  intro e he
  cases e with
  | beforeRun er m =>
    have h1 : tagOf x (.beforeRun er m) = none := by
      unfold life at h
      rw [List.filterMap_eq_nil_iff] at h
      exact h _ he
    by_cases hm : m = x
    · simp [tagOf, hm] at h1
    · simp [Event.isBefore, hm]
  | _ => rfl

end Joque
